import Verif.Model.Lenses
import Mathlib.Analysis.SpecialFunctions.Trigonometric.InverseDeriv
import Mathlib.Analysis.SpecialFunctions.Sqrt
import Mathlib.Tactic.LinearCombination
import Mathlib.Tactic.FieldSimp
import Mathlib.Tactic.Positivity

/-! The function `arccosh(1/x)/√(1-x²)`, continued by `arccos(1/x)/√(x²-1)`, shared by the NFW and
truncated NFW profiles. -/

open Real

namespace Caustics

noncomputable def ringF (x : ℝ) : ℝ :=
  if x < 1 then arcosh (1 / x) / √(1 - x ^ 2)
  else if 1 < x then arccos (1 / x) / √(x ^ 2 - 1) else 1

noncomputable def ringP (x : ℝ) : ℝ :=
  if x < 1 then -arcosh (1 / x) ^ 2 else if 1 < x then arccos (1 / x) ^ 2 else 0

theorem ringF_lt {x : ℝ} (h : x < 1) : ringF x = arcosh (1 / x) / √(1 - x ^ 2) := if_pos h
theorem ringF_gt {x : ℝ} (h : 1 < x) : ringF x = arccos (1 / x) / √(x ^ 2 - 1) := by
  rw [ringF, if_neg (not_lt.mpr h.le), if_pos h]
theorem ringP_lt {x : ℝ} (h : x < 1) : ringP x = -arcosh (1 / x) ^ 2 := if_pos h
theorem ringP_gt {x : ℝ} (h : 1 < x) : ringP x = arccos (1 / x) ^ 2 := by
  rw [ringP, if_neg (not_lt.mpr h.le), if_pos h]

theorem sqrt_sq_sub_one {x : ℝ} (h : 1 < x) : 0 < √(x ^ 2 - 1) ∧ √(x ^ 2 - 1) ^ 2 = x ^ 2 - 1 := by
  have : 0 < x ^ 2 - 1 := by nlinarith
  exact ⟨sqrt_pos.mpr this, sq_sqrt this.le⟩

theorem sqrt_one_sub_sq {x : ℝ} (h0 : 0 < x) (h : x < 1) :
    0 < √(1 - x ^ 2) ∧ √(1 - x ^ 2) ^ 2 = 1 - x ^ 2 := by
  have : 0 < 1 - x ^ 2 := by nlinarith
  exact ⟨sqrt_pos.mpr this, sq_sqrt this.le⟩

theorem hasDerivAt_inv' {x : ℝ} (h : x ≠ 0) : HasDerivAt (fun x : ℝ => 1 / x) (-1 / x ^ 2) x := by
  refine ((hasDerivAt_const x (1 : ℝ)).div (hasDerivAt_id x) h).congr_deriv ?_
  simp

theorem hasDerivAt_arccos_inv {x : ℝ} (h : 1 < x) :
    HasDerivAt (fun x => arccos (1 / x)) (1 / (x * √(x ^ 2 - 1))) x := by
  have h0 : 0 < x := by linarith
  have hlt : 1 / x < 1 := by rw [div_lt_one h0]; exact h
  have hpos : 0 < 1 / x := by positivity
  have := (hasDerivAt_arccos (x := 1 / x) (by linarith) hlt.ne).comp x (hasDerivAt_inv' h0.ne')
  refine this.congr_deriv ?_
  obtain ⟨p, e⟩ := sqrt_sq_sub_one h
  have hs : √(1 - (1 / x) ^ 2) = √(x ^ 2 - 1) / x := by
    rw [show 1 - (1 / x) ^ 2 = (x ^ 2 - 1) / x ^ 2 by field_simp, sqrt_div (by nlinarith),
      sqrt_sq h0.le]
  rw [hs]
  field_simp

theorem hasDerivAt_arcosh_inv {x : ℝ} (h0 : 0 < x) (h : x < 1) :
    HasDerivAt (fun x => arcosh (1 / x)) (-1 / (x * √(1 - x ^ 2))) x := by
  have hlt : 1 < 1 / x := by rw [lt_div_iff₀ h0]; linarith
  have := (hasDerivAt_arcosh (x := 1 / x) hlt).comp x (hasDerivAt_inv' h0.ne')
  refine this.congr_deriv ?_
  obtain ⟨p, e⟩ := sqrt_one_sub_sq h0 h
  have hs : √((1 / x) ^ 2 - 1) = √(1 - x ^ 2) / x := by
    rw [show (1 / x) ^ 2 - 1 = (1 - x ^ 2) / x ^ 2 by field_simp, sqrt_div (by nlinarith),
      sqrt_sq h0.le]
  rw [hs]
  field_simp

theorem hasDerivAt_ringP {x : ℝ} (h0 : 0 < x) (h1 : x ≠ 1) :
    HasDerivAt ringP (2 * ringF x / x) x := by
  rcases lt_or_gt_of_ne h1 with h | h
  · have hd := ((hasDerivAt_arcosh_inv h0 h).pow 2).neg
    have : ringP =ᶠ[nhds x] fun x => -arcosh (1 / x) ^ 2 := by
      filter_upwards [isOpen_Iio.mem_nhds h] with y hy
      exact ringP_lt hy
    refine (hd.congr_of_eventuallyEq this).congr_deriv ?_
    obtain ⟨p, e⟩ := sqrt_one_sub_sq h0 h
    rw [ringF_lt h]
    simp only [Nat.cast_ofNat, Nat.add_one_sub_one, pow_one]
    field_simp
  · have hd := ((hasDerivAt_arccos_inv h).pow 2)
    have : ringP =ᶠ[nhds x] fun x => arccos (1 / x) ^ 2 := by
      filter_upwards [isOpen_Ioi.mem_nhds h] with y hy
      exact ringP_gt hy
    refine (hd.congr_of_eventuallyEq this).congr_deriv ?_
    obtain ⟨p, e⟩ := sqrt_sq_sub_one h
    rw [ringF_gt h]
    simp only [Nat.cast_ofNat, Nat.add_one_sub_one, pow_one]
    field_simp

theorem hasDerivAt_ringF {x : ℝ} (h0 : 0 < x) (h1 : x ≠ 1) :
    HasDerivAt ringF ((1 - x ^ 2 * ringF x) / (x * (x ^ 2 - 1))) x := by
  have hne : x ^ 2 - 1 ≠ 0 := by
    intro h
    apply h1
    have : (x - 1) * (x + 1) = 0 := by linear_combination h
    rcases mul_eq_zero.mp this with h | h <;> linarith
  rcases lt_or_gt_of_ne h1 with h | h
  · obtain ⟨p, e⟩ := sqrt_one_sub_sq h0 h
    have hq : HasDerivAt (fun x : ℝ => √(1 - x ^ 2)) (-x / √(1 - x ^ 2)) x := by
      have : HasDerivAt (fun x : ℝ => 1 - x ^ 2) (-(2 * x)) x := by
        refine (((hasDerivAt_id x).pow 2).const_sub 1).congr_deriv ?_
        simp
      refine (this.sqrt (by nlinarith)).congr_deriv ?_
      field_simp
    have hd := (hasDerivAt_arcosh_inv h0 h).div hq p.ne'
    have : ringF =ᶠ[nhds x] fun x => arcosh (1 / x) / √(1 - x ^ 2) := by
      filter_upwards [isOpen_Iio.mem_nhds h] with y hy
      exact ringF_lt hy
    refine (hd.congr_of_eventuallyEq this).congr_deriv ?_
    rw [ringF_lt h]
    have e' : x ^ 2 - 1 = -√(1 - x ^ 2) ^ 2 := by rw [e]; ring
    rw [e']
    generalize √(1 - x ^ 2) = w at p e
    generalize arcosh (1 / x) = u
    field_simp
    ring
  · obtain ⟨p, e⟩ := sqrt_sq_sub_one h
    have hq : HasDerivAt (fun x : ℝ => √(x ^ 2 - 1)) (x / √(x ^ 2 - 1)) x := by
      have : HasDerivAt (fun x : ℝ => x ^ 2 - 1) (2 * x) x := by
        refine (((hasDerivAt_id x).pow 2).sub_const 1).congr_deriv ?_
        simp
      refine (this.sqrt (by nlinarith)).congr_deriv ?_
      field_simp
    have hd := (hasDerivAt_arccos_inv h).div hq p.ne'
    have : ringF =ᶠ[nhds x] fun x => arccos (1 / x) / √(x ^ 2 - 1) := by
      filter_upwards [isOpen_Ioi.mem_nhds h] with y hy
      exact ringF_gt hy
    refine (hd.congr_of_eventuallyEq this).congr_deriv ?_
    rw [ringF_gt h]
    have e' : x ^ 2 - 1 = √(x ^ 2 - 1) ^ 2 := e.symm
    rw [e', sqrt_sq p.le]
    generalize √(x ^ 2 - 1) = w at p e
    generalize arccos (1 / x) = u
    field_simp

/-- The two forms the code uses for the same function. -/
theorem two_arctan_eq {x : ℝ} (h : 1 < x) : 2 * arctan (√((x - 1) / (x + 1))) = arccos (1 / x) := by
  set t := √((x - 1) / (x + 1)) with ht
  have hn : 0 ≤ t := sqrt_nonneg _
  have ht2 : t ^ 2 = (x - 1) / (x + 1) := sq_sqrt (div_nonneg (by linarith) (by linarith))
  have hc : cos (2 * arctan t) = 1 / x := by
    have hx : x ≠ 0 := by linarith
    have e1 : 1 + (x - 1) / (x + 1) = 2 * x / (x + 1) := by field_simp; ring
    rw [cos_two_mul, cos_sq_arctan, ht2, e1]
    field_simp
    ring
  rw [← hc, arccos_cos]
  · have := arctan_nonneg.mpr hn; linarith
  · have := arctan_lt_pi_div_two t; linarith

theorem two_artanh_eq {x : ℝ} (h0 : 0 < x) (h : x < 1) :
    2 * artanh (√((1 - x) / (1 + x))) = arcosh (1 / x) := by
  set t := √((1 - x) / (1 + x)) with ht
  have hn : 0 ≤ t := sqrt_nonneg _
  have ht2 : t ^ 2 = (1 - x) / (1 + x) := sq_sqrt (div_nonneg (by linarith) (by linarith))
  have ht1 : t < 1 := by
    have : t ^ 2 < 1 := by rw [ht2, div_lt_one (by linarith)]; linarith
    nlinarith
  have hm : t ∈ Set.Ioo (-1 : ℝ) 1 := ⟨by linarith, ht1⟩
  have hp : 0 < 1 - t ^ 2 := by nlinarith
  have hc : cosh (2 * artanh t) = 1 / x := by
    rw [cosh_two_mul, cosh_artanh hm, sinh_artanh hm, div_pow, div_pow, sq_sqrt hp.le, ht2]
    have e1 : 1 - (1 - x) / (1 + x) = 2 * x / (1 + x) := by field_simp; ring
    rw [e1]
    field_simp
    ring
  rw [← hc, arcosh_cosh]
  have := artanh_nonneg hn; linarith

end Caustics
