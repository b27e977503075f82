import Mathlib.Analysis.SpecialFunctions.PolarCoord
import Mathlib.MeasureTheory.Measure.Lebesgue.EqHaar
import Mathlib.MeasureTheory.Integral.IntervalIntegral.FundThmCalculus
import Mathlib.MeasureTheory.Group.Integral
import Mathlib.MeasureTheory.Integral.Prod
import Mathlib.Tactic.FieldSimp
import Mathlib.Tactic.Ring
import Mathlib.Tactic.Linarith

/-! Integrals over discs and ellipses of functions that depend on the (elliptical) radius only. -/

open Real MeasureTheory Set

namespace Caustics

/-- Polar coordinates: the integral over a disc. -/
theorem disc_integral_eq (f : ℝ → ℝ) {R : ℝ} (hR : 0 < R) :
    ∫ p in {p : ℝ × ℝ | p.1 ^ 2 + p.2 ^ 2 ≤ R ^ 2}, f (√(p.1 ^ 2 + p.2 ^ 2)) =
      2 * π * ∫ r in (0 : ℝ)..R, r * f r := by
  have hm : MeasurableSet {p : ℝ × ℝ | p.1 ^ 2 + p.2 ^ 2 ≤ R ^ 2} :=
    measurableSet_le (by fun_prop) (by fun_prop)
  rw [← integral_indicator hm, ← integral_comp_polarCoord_symm]
  have ht : polarCoord.target = Ioi (0 : ℝ) ×ˢ Ioo (-π) π := rfl
  have hs : ∀ p : ℝ × ℝ, polarCoord.symm p = (p.1 * cos p.2, p.1 * sin p.2) := fun p => rfl
  rw [ht]
  have hc : ∀ p ∈ Ioi (0 : ℝ) ×ˢ Ioo (-π) π,
      p.1 • ({p : ℝ × ℝ | p.1 ^ 2 + p.2 ^ 2 ≤ R ^ 2}.indicator (fun p => f (√(p.1 ^ 2 + p.2 ^ 2)))
        (polarCoord.symm p)) = (Ioc 0 R).indicator (fun r => r * f r) p.1 * 1 := by
    rintro ⟨r, θ⟩ ⟨hr, -⟩
    have hr : 0 < r := hr
    have e : (r * cos θ) ^ 2 + (r * sin θ) ^ 2 = r ^ 2 := by
      linear_combination r ^ 2 * sin_sq_add_cos_sq θ
    rw [hs, mul_one]
    by_cases h : r ≤ R
    · rw [indicator_of_mem, indicator_of_mem (show r ∈ Ioc 0 R from ⟨hr, h⟩)]
      · simp only [e, sqrt_sq hr.le, smul_eq_mul]
      · change (r * cos θ) ^ 2 + (r * sin θ) ^ 2 ≤ R ^ 2
        rw [e]; gcongr
    · rw [indicator_of_notMem, indicator_of_notMem (fun hh => h hh.2)]
      · simp
      · change ¬ ((r * cos θ) ^ 2 + (r * sin θ) ^ 2 ≤ R ^ 2)
        rw [e]
        intro hh
        exact h (abs_le_of_sq_le_sq' hh hR.le).2
  rw [setIntegral_congr_fun (measurableSet_Ioi.prod measurableSet_Ioo) hc,
    Measure.volume_eq_prod,
    setIntegral_prod_mul (fun r => (Ioc 0 R).indicator (fun r => r * f r) r) (fun _ => (1 : ℝ))]
  rw [setIntegral_indicator measurableSet_Ioc, inter_eq_right.2 (fun r hr => hr.1),
    intervalIntegral.integral_of_le hR.le]
  simp only [integral_const, smul_eq_mul, mul_one, measureReal_restrict_apply_univ]
  rw [Real.volume_real_Ioo_of_le (by linarith [pi_pos])]
  ring

/-- The fundamental theorem: if `M` starts at zero and grows at the rate `r f r`, the integral over
the disc of radius `R` is `2 π M R`. -/
theorem disc_integral {f M : ℝ → ℝ} {R : ℝ} (hR : 0 < R) (hM0 : M 0 = 0)
    (hc : ContinuousOn M (Icc 0 R)) (hd : ∀ r ∈ Ioo 0 R, HasDerivAt M (r * f r) r)
    (hf : ∀ r ∈ Ioo 0 R, 0 ≤ f r) :
    ∫ p in {p : ℝ × ℝ | p.1 ^ 2 + p.2 ^ 2 ≤ R ^ 2}, f (√(p.1 ^ 2 + p.2 ^ 2)) = 2 * π * M R := by
  rw [disc_integral_eq f hR]
  have hi : IntervalIntegrable (fun r => r * f r) volume 0 R :=
    (intervalIntegrable_iff_integrableOn_Ioc_of_le hR.le).2
      (intervalIntegral.integrableOn_deriv_of_nonneg hc hd
        fun r hr => mul_nonneg hr.1.le (hf r hr))
  rw [intervalIntegral.integral_eq_sub_of_hasDerivAt_of_le hR.le hc hd hi, hM0, sub_zero]

/-- Affine change of coordinates in the plane. -/
theorem integral_affine (g : ℝ × ℝ → ℝ) {a b c d : ℝ} (h : a * d - b * c ≠ 0) (x0 y0 : ℝ) :
    ∫ p : ℝ × ℝ, g (a * (p.1 - x0) + b * (p.2 - y0), c * (p.1 - x0) + d * (p.2 - y0)) =
      |a * d - b * c|⁻¹ * ∫ p, g p := by
  let L : ℝ × ℝ →ₗ[ℝ] ℝ × ℝ := Matrix.toLin (.finTwoProd ℝ) (.finTwoProd ℝ) !![a, b; c, d]
  have hL : ∀ p : ℝ × ℝ, L p = (a * p.1 + b * p.2, c * p.1 + d * p.2) := by
    intro p
    simp only [L, Matrix.toLin_finTwoProd_apply]
  have hdet : LinearMap.det L = a * d - b * c := by
    simp only [L, LinearMap.det_toLin, Matrix.det_fin_two_of]
  have hd0 : LinearMap.det L ≠ 0 := by rw [hdet]; exact h
  have e1 : (fun p : ℝ × ℝ => g (a * (p.1 - x0) + b * (p.2 - y0), c * (p.1 - x0) + d * (p.2 - y0))) =
      fun p => (fun p => g (L p)) (p - (x0, y0)) := by
    funext p; simp only [hL, Prod.fst_sub, Prod.snd_sub]
  rw [e1, integral_sub_right_eq_self (fun p => g (L p)) (x0, y0)]
  let E : (ℝ × ℝ) ≃L[ℝ] ℝ × ℝ := (LinearEquiv.ofIsUnitDet (f := L) (v := Module.Basis.finTwoProd ℝ)
    (v' := Module.Basis.finTwoProd ℝ) (by simpa using hd0)).toContinuousLinearEquiv
  have hE : ∀ p, E p = L p := fun p => rfl
  have hme : MeasurableEmbedding L := E.toHomeomorph.measurableEmbedding
  rw [← hme.integral_map g, Measure.map_linearMap_addHaar_eq_smul_addHaar volume hd0,
    integral_smul_measure, hdet, ENNReal.toReal_ofReal (abs_nonneg _), abs_inv, smul_eq_mul]

/-- The integral over an ellipse, the region where the radius of the image under an affine map is at
most `R`. -/
theorem ellipse_integral {f M : ℝ → ℝ} {R a b c d : ℝ} (h : a * d - b * c ≠ 0) (x0 y0 : ℝ) (hR : 0 < R)
    (hM0 : M 0 = 0) (hc : ContinuousOn M (Icc 0 R)) (hd : ∀ r ∈ Ioo 0 R, HasDerivAt M (r * f r) r)
    (hf : ∀ r ∈ Ioo 0 R, 0 ≤ f r) :
    ∫ p in {p : ℝ × ℝ | (a * (p.1 - x0) + b * (p.2 - y0)) ^ 2
        + (c * (p.1 - x0) + d * (p.2 - y0)) ^ 2 ≤ R ^ 2},
      f (√((a * (p.1 - x0) + b * (p.2 - y0)) ^ 2 + (c * (p.1 - x0) + d * (p.2 - y0)) ^ 2)) =
      |a * d - b * c|⁻¹ * (2 * π * M R) := by
  rw [← disc_integral hR hM0 hc hd hf]
  have hm : MeasurableSet {p : ℝ × ℝ | p.1 ^ 2 + p.2 ^ 2 ≤ R ^ 2} :=
    measurableSet_le (by fun_prop) (by fun_prop)
  have hm' : MeasurableSet {p : ℝ × ℝ | (a * (p.1 - x0) + b * (p.2 - y0)) ^ 2
        + (c * (p.1 - x0) + d * (p.2 - y0)) ^ 2 ≤ R ^ 2} :=
    measurableSet_le (by fun_prop) (by fun_prop)
  rw [← integral_indicator hm, ← integral_indicator hm', ← integral_affine _ h x0 y0]
  rfl

end Caustics
