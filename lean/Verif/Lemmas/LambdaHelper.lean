import Verif.Model.LambdaTable
import Mathlib.MeasureTheory.Integral.IntervalIntegral.FundThmCalculus
import Mathlib.Analysis.SpecialFunctions.Integrals.Basic
import Mathlib.Analysis.SpecialFunctions.Pow.Deriv
import Mathlib.Analysis.SpecialFunctions.Sqrt
import Mathlib.Analysis.Calculus.MeanValue
import Mathlib.Analysis.Calculus.Deriv.MeanValue
import Mathlib.Tactic.NormNum.RealSqrt

/-! The function tabulated by FlatLambdaCDM: `x ₂F₁(1/3, 1/2; 4/3; -x³) = ∫₀ˣ dt / √(1 + t³)`. -/

open Real MeasureTheory intervalIntegral

namespace Caustics

/-- The integrand. -/
noncomputable def lamg (x : ℝ) : ℝ := 1 / √(1 + x ^ 3)

/-- `∫₀ˣ dt / √(1 + t³)`. -/
noncomputable def lamH (x : ℝ) : ℝ := ∫ t in (0 : ℝ)..x, lamg t

theorem lamg_base {x : ℝ} (hx : 0 ≤ x) : 0 < 1 + x ^ 3 := by positivity

theorem lamg_pos {x : ℝ} (hx : 0 ≤ x) : 0 < lamg x := by
  have := lamg_base hx
  unfold lamg
  positivity

theorem lamg_antitone {a b : ℝ} (ha : 0 ≤ a) (h : a ≤ b) : lamg b ≤ lamg a := by
  have := lamg_base ha
  unfold lamg
  apply one_div_le_one_div_of_le (by positivity)
  apply sqrt_le_sqrt
  have := pow_le_pow_left₀ ha h 3
  linarith

theorem lamg_strictAnti {a b : ℝ} (ha : 0 ≤ a) (h : a < b) : lamg b < lamg a := by
  have := lamg_base ha
  unfold lamg
  apply one_div_lt_one_div_of_lt (by positivity)
  apply sqrt_lt_sqrt this.le
  have := pow_lt_pow_left₀ h ha (n := 3) (by norm_num)
  linarith

theorem lamg_continuousAt {x : ℝ} (hx : 0 ≤ x) : ContinuousAt lamg x := by
  have h := lamg_base hx
  unfold lamg
  apply ContinuousAt.div continuousAt_const _ (by positivity)
  exact (continuous_sqrt.comp (by fun_prop)).continuousAt

theorem lamg_integrable {a b : ℝ} (ha : 0 ≤ a) (hb : 0 ≤ b) : IntervalIntegrable lamg volume a b := by
  apply ContinuousOn.intervalIntegrable
  intro x hx
  have : 0 ≤ x := le_trans (le_min ha hb) hx.1
  exact (lamg_continuousAt this).continuousWithinAt

/-- The integrand extended to the left of zero, where only its continuity matters. -/
theorem lamH_hasDerivAt {x : ℝ} (hx : 0 ≤ x) : HasDerivAt lamH (lamg x) x := by
  apply integral_hasDerivAt_right (lamg_integrable le_rfl hx) _ (lamg_continuousAt hx)
  refine ⟨Set.univ, Filter.univ_mem, ?_⟩
  apply Measurable.aestronglyMeasurable
  unfold lamg
  fun_prop

theorem lamH_zero : lamH 0 = 0 := by simp [lamH]

theorem lamH_continuousOn : ContinuousOn lamH (Set.Ici 0) := fun _ hx =>
  (lamH_hasDerivAt hx).continuousAt.continuousWithinAt

/-- Mean value. -/
theorem lamH_mean {a b : ℝ} (ha : 0 ≤ a) (h : a < b) : ∃ c, a < c ∧ c < b ∧ lamH b - lamH a = lamg c * (b - a) := by
  obtain ⟨c, hc, e⟩ := exists_hasDerivAt_eq_slope lamH lamg h
    (lamH_continuousOn.mono fun x hx => ha.trans hx.1) (fun x hx => lamH_hasDerivAt (ha.trans hx.1.le))
  refine ⟨c, hc.1, hc.2, ?_⟩
  rw [e, div_mul_cancel₀ _ (by linarith)]

theorem lamH_bounds {a b : ℝ} (ha : 0 ≤ a) (h : a ≤ b) :
    lamg b * (b - a) ≤ lamH b - lamH a ∧ lamH b - lamH a ≤ lamg a * (b - a) := by
  rcases h.eq_or_lt with rfl | h
  · simp
  obtain ⟨c, h1, h2, e⟩ := lamH_mean ha h
  rw [e]
  have hb : 0 ≤ b - a := by linarith
  exact ⟨mul_le_mul_of_nonneg_right (lamg_antitone (ha.trans h1.le) h2.le) hb,
    mul_le_mul_of_nonneg_right (lamg_antitone ha h1.le) hb⟩

theorem lamH_strictMono {a b : ℝ} (ha : 0 ≤ a) (h : a < b) : lamH a < lamH b := by
  have := (lamH_bounds ha h.le).1
  have h2 := mul_pos (lamg_pos (ha.trans h.le)) (sub_pos.2 h)
  linarith

/-- The horizon: the integral stays below three. -/
theorem lamH_lt_three {x : ℝ} (hx : 0 ≤ x) : lamH x < 3 := by
  have h1 : lamH 1 ≤ 1 := by
    have := (lamH_bounds le_rfl zero_le_one).2
    have e : lamg 0 = 1 := by simp [lamg]
    rw [e, lamH_zero] at this
    linarith
  rcases le_total x 1 with h | h
  · rcases h.eq_or_lt with rfl | h
    · linarith
    · linarith [lamH_strictMono hx h]
  · have hmono : MonotoneOn (fun x => -(2 * (√x)⁻¹) - lamH x) (Set.Ici 1) := by
      apply monotoneOn_of_deriv_nonneg (convex_Ici 1)
      · intro x hx
        have hx0 : (0 : ℝ) < x := lt_of_lt_of_le one_pos hx
        have : √x ≠ 0 := by positivity
        apply ContinuousWithinAt.sub
        · exact ((continuous_sqrt.continuousAt.inv₀ this).const_mul 2).neg.continuousWithinAt
        · exact (lamH_hasDerivAt hx0.le).continuousAt.continuousWithinAt
      · intro x hx
        rw [interior_Ici] at hx
        have hx0 : (0 : ℝ) < x := lt_trans one_pos hx
        have hd := (((hasDerivAt_id x).sqrt hx0.ne').inv (by positivity)).const_mul 2
        exact (hd.neg.sub (lamH_hasDerivAt hx0.le)).differentiableAt.differentiableWithinAt
      · intro x hx
        rw [interior_Ici] at hx
        have hx0 : (0 : ℝ) < x := lt_trans one_pos hx
        have hd := (((hasDerivAt_id x).sqrt hx0.ne').inv (by simp; positivity)).const_mul 2
        have hd2 := hd.neg.sub (lamH_hasDerivAt hx0.le)
        have e := hd2.deriv
        simp only [id] at e
        have e' : deriv (fun x => -(2 * (√x)⁻¹) - lamH x) x = 1 / (x * √x) - lamg x := by
          rw [show (fun x => -(2 * (√x)⁻¹) - lamH x) = _ from rfl]
          refine Eq.trans e ?_
          have hs : √x ^ 2 = x := sq_sqrt hx0.le
          have : √x ≠ 0 := by positivity
          congr 1
          rw [hs]
          field_simp
        rw [e']
        have hs : √x ^ 2 = x := sq_sqrt hx0.le
        have h3 : x * √x = √(x ^ 3) := by
          rw [show x ^ 3 = x ^ 2 * x by ring, sqrt_mul (by positivity), sqrt_sq hx0.le]
        rw [h3, sub_nonneg]
        unfold lamg
        apply one_div_le_one_div_of_le (by positivity)
        apply sqrt_le_sqrt
        linarith
    have := hmono (Set.mem_Ici.2 le_rfl) (Set.mem_Ici.2 h) h
    simp only [sqrt_one, inv_one, mul_one] at this
    have hp : 0 < 2 * (√x)⁻¹ := by positivity
    linarith

/-! ### The hypergeometric function -/

theorem hyp2f1_eq {x : ℝ} (hx : 0 ≤ x) : x * hyp2f1 (1 / 3) (1 / 2) (4 / 3) (-(x ^ 3)) = lamH x := by
  have hG : Real.Gamma (4 / 3) / (Real.Gamma (1 / 3) * Real.Gamma (4 / 3 - 1 / 3)) = 1 / 3 := by
    rw [show (4 / 3 - 1 / 3 : ℝ) = 1 by norm_num, Real.Gamma_one, mul_one, show (4 / 3 : ℝ) = 1 / 3 + 1 by norm_num,
      Real.Gamma_add_one (by norm_num)]
    have : Real.Gamma (1 / 3) ≠ 0 := (Real.Gamma_pos_of_pos (by norm_num)).ne'
    field_simp
  have hder : ∀ t ∈ Set.Ioo (0 : ℝ) 1, HasDerivAt (fun t => lamH (x * t ^ (1 / 3 : ℝ)))
      (x * (1 / 3 * (t ^ ((1 / 3 : ℝ) - 1) * (1 - t) ^ ((4 / 3 : ℝ) - 1 / 3 - 1) * (1 - -(x ^ 3) * t) ^ (-(1 / 2 : ℝ))))) t := by
    intro t ht
    have h0 : 0 ≤ x * t ^ (1 / 3 : ℝ) := mul_nonneg hx (rpow_nonneg ht.1.le _)
    have h1 := (Real.hasDerivAt_rpow_const (p := 1 / 3) (Or.inl ht.1.ne')).const_mul x
    have h2 := (lamH_hasDerivAt h0).comp t h1
    refine h2.congr_deriv ?_
    have e1 : (x * t ^ (1 / 3 : ℝ)) ^ 3 = x ^ 3 * t := by
      rw [mul_pow, ← rpow_natCast (t ^ (1 / 3 : ℝ)) 3, ← rpow_mul ht.1.le]
      norm_num
    have hb : 0 < 1 + x ^ 3 * t := by have := ht.1; positivity
    have e2 : (1 - -(x ^ 3) * t) ^ (-(1 / 2 : ℝ)) = lamg (x * t ^ (1 / 3 : ℝ)) := by
      rw [show 1 - -(x ^ 3) * t = 1 + x ^ 3 * t by ring, lamg, e1, rpow_neg hb.le, ← sqrt_eq_rpow, one_div]
    rw [e2, show ((4 / 3 : ℝ) - 1 / 3 - 1) = 0 by norm_num, rpow_zero]
    ring
  have hint : IntervalIntegrable (fun t : ℝ => x * (1 / 3 * (t ^ ((1 / 3 : ℝ) - 1) * (1 - t) ^ ((4 / 3 : ℝ) - 1 / 3 - 1)
      * (1 - -(x ^ 3) * t) ^ (-(1 / 2 : ℝ))))) volume 0 1 := by
    apply IntervalIntegrable.const_mul
    apply IntervalIntegrable.const_mul
    simp only [show ((4 / 3 : ℝ) - 1 / 3 - 1) = 0 by norm_num, rpow_zero, mul_one]
    apply IntervalIntegrable.mul_continuousOn (intervalIntegrable_rpow' (by norm_num))
    intro t ht
    rw [Set.uIcc_of_le zero_le_one] at ht
    have hb : 0 < 1 - -(x ^ 3) * t := by
      have := mul_nonneg (pow_nonneg hx 3) ht.1
      linarith
    have hc : ContinuousAt (fun t : ℝ => 1 - -(x ^ 3) * t) t := by fun_prop
    exact (hc.rpow_const (Or.inl hb.ne')).continuousWithinAt
  have hcont : ContinuousOn (fun t => lamH (x * t ^ (1 / 3 : ℝ))) (Set.Icc 0 1) := by
    apply lamH_continuousOn.comp
    · exact (continuous_const.mul (continuous_rpow_const (by norm_num))).continuousOn
    · intro t ht
      exact mul_nonneg hx (rpow_nonneg ht.1 _)
  have := integral_eq_sub_of_hasDerivAt_of_le zero_le_one hcont hder hint
  rw [one_rpow, zero_rpow (by norm_num), mul_one, mul_zero, lamH_zero, sub_zero] at this
  rw [← this, hyp2f1, hG, intervalIntegral.integral_const_mul, intervalIntegral.integral_const_mul]

end Caustics
