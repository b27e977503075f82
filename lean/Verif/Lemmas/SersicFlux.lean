import Verif.Lemmas.DiscIntegral
import Mathlib.MeasureTheory.Integral.Gamma
import Mathlib.Analysis.SpecialFunctions.Integrals.Basic
import Mathlib.Analysis.SpecialFunctions.Pow.Deriv
import Mathlib.Analysis.SpecialFunctions.ImproperIntegrals

/-! Integrals of a Sersic profile. -/

open Real MeasureTheory Set

namespace Caustics

/-- Integral over the plane of a function of the radius. -/
theorem plane_integral_eq (f : ℝ → ℝ) :
    ∫ p : ℝ × ℝ, f (√(p.1 ^ 2 + p.2 ^ 2)) = 2 * π * ∫ r in Ioi (0 : ℝ), r * f r := by
  rw [← integral_comp_polarCoord_symm]
  have ht : polarCoord.target = Ioi (0 : ℝ) ×ˢ Ioo (-π) π := rfl
  have hs : ∀ p : ℝ × ℝ, polarCoord.symm p = (p.1 * cos p.2, p.1 * sin p.2) := fun p => rfl
  rw [ht]
  have hc : ∀ p ∈ Ioi (0 : ℝ) ×ˢ Ioo (-π) π,
      p.1 • (fun p : ℝ × ℝ => f (√(p.1 ^ 2 + p.2 ^ 2))) (polarCoord.symm p) = (fun r => r * f r) p.1 * 1 := by
    rintro ⟨r, θ⟩ ⟨hr, -⟩
    have hr : 0 < r := hr
    have e : (r * cos θ) ^ 2 + (r * sin θ) ^ 2 = r ^ 2 := by
      linear_combination r ^ 2 * sin_sq_add_cos_sq θ
    rw [hs, mul_one]
    simp only [e, sqrt_sq hr.le, smul_eq_mul]
  rw [setIntegral_congr_fun (measurableSet_Ioi.prod measurableSet_Ioo) hc, Measure.volume_eq_prod,
    setIntegral_prod_mul (fun r => r * f r) (fun _ => (1 : ℝ))]
  simp only [integral_const, smul_eq_mul, mul_one, measureReal_restrict_apply_univ]
  rw [Real.volume_real_Ioo_of_le (by linarith [pi_pos])]
  ring

/-- The incomplete Gamma integral. -/
noncomputable def lowerGamma (a x : ℝ) : ℝ := ∫ u in (0 : ℝ)..x, u ^ (a - 1) * exp (-u)

theorem intervalIntegrable_lowerGamma {a : ℝ} (ha : 0 < a) (x y : ℝ) (hx : 0 ≤ x) (hy : 0 ≤ y) :
    IntervalIntegrable (fun u => u ^ (a - 1) * exp (-u)) volume x y := by
  refine (intervalIntegral.intervalIntegrable_rpow' (by linarith)).mul_continuousOn (by fun_prop)

theorem hasDerivAt_lowerGamma {a x : ℝ} (ha : 0 < a) (hx : 0 < x) :
    HasDerivAt (lowerGamma a) (x ^ (a - 1) * exp (-x)) x := by
  have hc : ContinuousAt (fun u : ℝ => u ^ (a - 1) * exp (-u)) x :=
    (continuousAt_rpow_const x _ (.inl hx.ne')).mul (by fun_prop)
  refine intervalIntegral.integral_hasDerivAt_right (intervalIntegrable_lowerGamma ha 0 x le_rfl hx.le) ?_ hc
  refine ContinuousOn.stronglyMeasurableAtFilter (s := Ioi 0) isOpen_Ioi ?_ x hx
  intro u hu
  exact ((continuousAt_rpow_const u _ (.inl (ne_of_gt hu))).mul (by fun_prop)).continuousWithinAt

theorem continuousOn_lowerGamma {a : ℝ} (ha : 0 < a) : ContinuousOn (lowerGamma a) (Ici 0) := by
  intro x hx
  have hx : 0 ≤ x := hx
  have h := intervalIntegral.continuousOn_primitive_interval (f := fun u : ℝ => u ^ (a - 1) * exp (-u))
    (μ := volume) (a := 0) (b := x + 1) (by
      rw [uIcc_of_le (by linarith)]
      have := intervalIntegrable_lowerGamma ha 0 (x + 1) le_rfl (by linarith)
      rw [intervalIntegrable_iff_integrableOn_Icc_of_le (by linarith)] at this
      exact this)
  rw [uIcc_of_le (by linarith)] at h
  have h1 := h x ⟨hx, by linarith⟩
  refine h1.mono_of_mem_nhdsWithin ?_
  rw [mem_nhdsWithin]
  exact ⟨Iio (x + 1), isOpen_Iio, by simp, fun u hu => ⟨hu.2, le_of_lt hu.1⟩⟩

theorem lowerGamma_zero (a : ℝ) : lowerGamma a 0 = 0 := by simp [lowerGamma]

/-- For a whole number the incomplete integral is elementary. -/
theorem lowerGamma_nat (m : ℕ) {x : ℝ} (hx : 0 ≤ x) :
    lowerGamma (m + 1) x = m.factorial * (1 - exp (-x) * ∑ i ∈ Finset.range (m + 1), x ^ i / i.factorial) := by
  have hd : ∀ u : ℝ, HasDerivAt (fun u => -(m.factorial : ℝ) * (exp (-u) * ∑ i ∈ Finset.range (m + 1), u ^ i / i.factorial))
      (u ^ m * exp (-u)) u := by
    intro u
    have hs : ∀ k : ℕ, HasDerivAt (fun u : ℝ => exp (-u) * ∑ i ∈ Finset.range (k + 1), u ^ i / i.factorial)
        (-(exp (-u) * (u ^ k / k.factorial))) u := by
      intro k
      induction k with
      | zero =>
        have := (hasDerivAt_neg u).exp
        simpa using this
      | succ k ih =>
        have he : (fun u : ℝ => exp (-u) * ∑ i ∈ Finset.range (k + 1 + 1), u ^ i / i.factorial)
            = fun u => exp (-u) * (∑ i ∈ Finset.range (k + 1), u ^ i / i.factorial)
              + exp (-u) * (u ^ (k + 1) / (k + 1).factorial) := by
          funext u; rw [Finset.sum_range_succ, mul_add]
        rw [he]
        have h2 := ((hasDerivAt_neg u).exp).fun_mul ((hasDerivAt_pow (k + 1) u).div_const ((k + 1).factorial : ℝ))
        refine (ih.add h2).congr_deriv ?_
        have hf : ((k + 1).factorial : ℝ) = (k + 1) * k.factorial := by push_cast [Nat.factorial_succ]; ring
        have : (k.factorial : ℝ) ≠ 0 := by positivity
        rw [hf]
        push_cast
        field_simp
        ring
    refine ((hs m).const_mul (-(m.factorial : ℝ))).congr_deriv ?_
    have : (m.factorial : ℝ) ≠ 0 := by positivity
    field_simp
  unfold lowerGamma
  have e : ∀ u : ℝ, u ^ ((m : ℝ) + 1 - 1) = u ^ m := fun u => by rw [add_sub_cancel_right, rpow_natCast]
  simp only [e]
  rw [intervalIntegral.integral_eq_sub_of_hasDerivAt (fun u _ => hd u) (by
    apply Continuous.intervalIntegrable; fun_prop)]
  simp only [neg_zero, exp_zero, one_mul]
  rw [Finset.sum_range_succ' (fun i => (0 : ℝ) ^ i / i.factorial)]
  simp
  ring

/-- The radial integral. -/
noncomputable def sersicM (n Re Ie k r : ℝ) : ℝ :=
  Ie * exp k * n * Re ^ 2 * k ^ (-(2 * n)) * lowerGamma (2 * n) (k * (r / Re) ^ (1 / n))

theorem hasDerivAt_sersicM {n Re Ie k r : ℝ} (hn : 0 < n) (hRe : 0 < Re) (hk : 0 < k) (hr : 0 < r) :
    HasDerivAt (sersicM n Re Ie k) (r * (Ie * exp (-k * ((r / Re) ^ (1 / n) - 1)))) r := by
  have hq : 0 < r / Re := div_pos hr hRe
  have hw : 0 < (r / Re) ^ (1 / n) := rpow_pos_of_pos hq _
  have hu : 0 < k * (r / Re) ^ (1 / n) := mul_pos hk hw
  have h1 : HasDerivAt (fun r => k * (r / Re) ^ (1 / n)) (k * (1 / Re * (1 / n) * (r / Re) ^ (1 / n - 1))) r := by
    have := ((hasDerivAt_id r).div_const Re).rpow_const (p := 1 / n) (.inl hq.ne')
    exact this.const_mul k
  have h2 := (hasDerivAt_lowerGamma (a := 2 * n) (by positivity) hu).comp r h1
  refine (h2.const_mul (Ie * exp k * n * Re ^ 2 * k ^ (-(2 * n)))).congr_deriv ?_
  have e1 : (k * (r / Re) ^ (1 / n)) ^ (2 * n - 1) = k ^ (2 * n) / k * ((r / Re) ^ 2 / (r / Re) ^ (1 / n)) := by
    rw [mul_rpow hk.le hw.le, ← rpow_mul hq.le, rpow_sub hk, rpow_one, show 1 / n * (2 * n - 1) = 2 - 1 / n by field_simp,
      rpow_sub hq]
    norm_num
  have e2 : (r / Re) ^ (1 / n - 1) = (r / Re) ^ (1 / n) / (r / Re) := by rw [rpow_sub hq, rpow_one]
  have e3 : k ^ (-(2 * n)) = (k ^ (2 * n))⁻¹ := rpow_neg hk.le _
  have e4 : exp (-k * ((r / Re) ^ (1 / n) - 1)) = exp k * exp (-(k * (r / Re) ^ (1 / n))) := by
    rw [← exp_add]; congr 1; ring
  have hK : 0 < k ^ (2 * n) := rpow_pos_of_pos hk _
  rw [e1, e2, e3, e4]
  generalize exp (-(k * (r / Re) ^ (1 / n))) = E
  generalize (r / Re) ^ (1 / n) = W at *
  generalize k ^ (2 * n) = K at *
  generalize exp k = X
  field_simp

theorem continuousOn_sersicM {n Re Ie k R : ℝ} (hn : 0 < n) (hRe : 0 < Re) (hk : 0 < k) :
    ContinuousOn (sersicM n Re Ie k) (Icc 0 R) := by
  have h : ContinuousOn (fun r => k * (r / Re) ^ (1 / n)) (Icc 0 R) := by
    refine continuousOn_const.mul (ContinuousOn.rpow_const (by fun_prop) fun x _ => .inr (by positivity))
  exact continuousOn_const.mul ((continuousOn_lowerGamma (by positivity)).comp h fun r hr =>
    mul_nonneg hk.le (rpow_nonneg (div_nonneg hr.1 hRe.le) _))

theorem sersicM_zero {n Re Ie k : ℝ} (hn : 0 < n) : sersicM n Re Ie k 0 = 0 := by
  simp [sersicM, hn.ne', lowerGamma_zero]

theorem sersic_radial_total {n Re Ie k : ℝ} (hn : 0 < n) (hRe : 0 < Re) (hk : 0 < k) :
    ∫ r in Ioi (0 : ℝ), r * (Ie * exp (-k * ((r / Re) ^ (1 / n) - 1)))
      = Ie * exp k * n * Re ^ 2 * k ^ (-(2 * n)) * Gamma (2 * n) := by
  have hb : 0 < k * Re ^ (-(1 / n)) := mul_pos hk (rpow_pos_of_pos hRe _)
  have h := integral_rpow_mul_exp_neg_mul_rpow (p := 1 / n) (q := 1) (b := k * Re ^ (-(1 / n))) (by positivity)
    (by norm_num) hb
  have e : ∀ r ∈ Ioi (0 : ℝ), r * (Ie * exp (-k * ((r / Re) ^ (1 / n) - 1)))
      = Ie * exp k * (r ^ (1 : ℝ) * exp (-(k * Re ^ (-(1 / n))) * r ^ (1 / n))) := by
    intro r hr
    have hr : 0 < r := hr
    rw [div_rpow hr.le hRe.le, rpow_neg hRe.le, rpow_one,
      show -k * (r ^ (1 / n) / Re ^ (1 / n) - 1) = k + -(k * (Re ^ (1 / n))⁻¹) * r ^ (1 / n) by ring, exp_add]
    ring
  rw [setIntegral_congr_fun measurableSet_Ioi e, integral_const_mul, h]
  have e1 : (k * Re ^ (-(1 / n))) ^ (-(1 + 1) / (1 / n)) = k ^ (-(2 * n)) * Re ^ 2 := by
    rw [mul_rpow hk.le (rpow_nonneg hRe.le _), ← rpow_mul hRe.le,
      show -(1 / n) * (-(1 + 1) / (1 / n)) = 2 by field_simp; norm_num,
      show -(1 + 1) / (1 / n) = -(2 * n) by field_simp; norm_num]
    norm_num
  rw [e1, show (1 + 1) / (1 / n) = 2 * n by field_simp; norm_num, one_div_one_div]
  ring

end Caustics
