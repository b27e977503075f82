import Verif.Lemmas.TNFWLimit
import Mathlib.Analysis.SpecialFunctions.Arsinh
import Mathlib.Analysis.SpecialFunctions.Trigonometric.InverseDeriv
import Mathlib.Analysis.Calculus.Deriv.Slope
import Mathlib.Analysis.Real.Pi.Bounds

/-! The enclosed mass of the truncated NFW profile far from the centre and at the centre. -/

open Real Filter Topology

namespace Caustics

theorem tendsto_arcsin_div : Tendsto (fun x : ℝ => x⁻¹ * arcsin x) (𝓝[>] 0) (𝓝 1) := by
  have h := (hasDerivAt_arcsin (x := 0) (by norm_num) (by norm_num)).tendsto_slope_zero_right
  simpa using h

theorem tendsto_arsinh_div : Tendsto (fun x : ℝ => x⁻¹ * arsinh x) (𝓝[>] 0) (𝓝 1) := by
  have h := (hasDerivAt_arsinh 0).tendsto_slope_zero_right
  simpa using h

theorem tendsto_inv_right : Tendsto (fun g : ℝ => g⁻¹) atTop (𝓝[>] 0) := tendsto_inv_atTop_nhdsGT_zero

/-- `√(g² - 1) / g → 1`. -/
theorem tendsto_sqrt_ratio (a : ℝ) : Tendsto (fun g : ℝ => √(1 + a * g⁻¹ ^ 2)) atTop (𝓝 1) := by
  have h : Tendsto (fun g : ℝ => √(1 + a * g⁻¹ ^ 2)) atTop (𝓝 (√(1 + a * 0 ^ 2))) :=
    ((tendsto_inv_top.pow 2).const_mul a |>.const_add 1).sqrt
  simpa using h

theorem sqrt_scale {a g : ℝ} (hg : 0 < g) : √(g ^ 2 + a) = g * √(1 + a * g⁻¹ ^ 2) := by
  conv_rhs => rw [← sqrt_sq hg.le, ← sqrt_mul (by positivity), sqrt_sq hg.le]
  congr 1
  field_simp

theorem tnfwL_arsinh {g t : ℝ} (hg : 0 < g) (ht : 0 < t) : tnfwL g t = -arsinh (t * g⁻¹) := by
  have h : t * g⁻¹ + √(1 + (t * g⁻¹) ^ 2) = (g / (t + √(t ^ 2 + g ^ 2)))⁻¹ := by
    rw [add_comm (t ^ 2), sqrt_scale (a := t ^ 2) hg, mul_pow, inv_div]
    field_simp
  rw [arsinh, h, log_inv, neg_neg, tnfwL]

/-- The bracket of the enclosed mass tends to the factor the total mass is divided by. -/
theorem tendsto_tnfwBracket {t : ℝ} (ht : 0 < t) :
    Tendsto (fun g : ℝ => (t ^ 2 + 1 + 2 * (g ^ 2 - 1)) * ringF g + t * π + (t ^ 2 - 1) * log t
      + √(t ^ 2 + g ^ 2) * (-π + (t ^ 2 - 1) * tnfwL g t / t)) atTop
      (𝓝 ((t ^ 2 - 1) * log t + π * t - (t ^ 2 + 1))) := by
  have h1 := tendsto_inv_top
  have hs1 := tendsto_sqrt_ratio (-1)
  have hst := tendsto_sqrt_ratio (t ^ 2)
  have hA : Tendsto (fun g : ℝ => arcsin g⁻¹) atTop (𝓝 0) := by
    have := (continuous_arcsin.tendsto 0).comp h1
    simpa [Function.comp_def] using this
  have hB : Tendsto (fun g : ℝ => (g⁻¹)⁻¹ * arcsin g⁻¹) atTop (𝓝 1) :=
    tendsto_arcsin_div.comp tendsto_inv_right
  have hmul : Tendsto (fun g : ℝ => t * g⁻¹) atTop (𝓝[>] 0) := by
    rw [tendsto_nhdsWithin_iff]
    refine ⟨by simpa using h1.const_mul t, ?_⟩
    filter_upwards [eventually_gt_atTop 0] with g hg
    exact mul_pos ht (inv_pos.mpr hg)
  have hC : Tendsto (fun g : ℝ => (t * g⁻¹)⁻¹ * arsinh (t * g⁻¹)) atTop (𝓝 1) :=
    tendsto_arsinh_div.comp hmul
  have hlim : Tendsto (fun g : ℝ =>
      (t ^ 2 + 1) * ((π / 2 - arcsin g⁻¹) * g⁻¹ / √(1 + -1 * g⁻¹ ^ 2))
      + (π * (-(1 + t ^ 2) * g⁻¹ / (√(1 + -1 * g⁻¹ ^ 2) + √(1 + t ^ 2 * g⁻¹ ^ 2)))
          - 2 * (√(1 + -1 * g⁻¹ ^ 2) * ((g⁻¹)⁻¹ * arcsin g⁻¹)))
      + t * π + (t ^ 2 - 1) * log t
      - (t ^ 2 - 1) * (√(1 + t ^ 2 * g⁻¹ ^ 2) * ((t * g⁻¹)⁻¹ * arsinh (t * g⁻¹)))) atTop
      (𝓝 ((t ^ 2 + 1) * ((π / 2 - 0) * 0 / 1)
      + (π * (-(1 + t ^ 2) * 0 / (1 + 1)) - 2 * (1 * 1))
      + t * π + (t ^ 2 - 1) * log t
      - (t ^ 2 - 1) * (1 * 1))) := by
    refine (((?_ : Tendsto _ _ _).add_const _).add_const _).sub ((hst.mul hC).const_mul _)
    refine ((((hA.const_sub _).mul h1).div hs1 (by norm_num)).const_mul _).add ?_
    exact ((((h1.const_mul _).div (hs1.add hst) (by norm_num)).const_mul π).sub
      ((hs1.mul hB).const_mul 2))
  have he : (t ^ 2 + 1) * ((π / 2 - 0) * 0 / 1)
      + (π * (-(1 + t ^ 2) * 0 / (1 + 1)) - 2 * (1 * 1))
      + t * π + (t ^ 2 - 1) * log t
      - (t ^ 2 - 1) * (1 * 1) = (t ^ 2 - 1) * log t + π * t - (t ^ 2 + 1) := by ring
  rw [he] at hlim
  refine hlim.congr' ?_
  filter_upwards [eventually_gt_atTop 1] with g hg
  have hg0 : 0 < g := by linarith
  have hc : √(g ^ 2 - 1) = g * √(1 + -1 * g⁻¹ ^ 2) := by
    rw [← sqrt_scale hg0]; rfl
  have hpos : 0 < √(1 + -1 * g⁻¹ ^ 2) := by
    have := (sqrt_sq_sub_one hg).1
    rw [hc] at this
    exact (pos_iff_pos_of_mul_pos this).mp hg0
  have hsq : √(1 + -1 * g⁻¹ ^ 2) ^ 2 = 1 + -1 * g⁻¹ ^ 2 := by
    refine sq_sqrt ?_
    by_contra hcon
    rw [sqrt_eq_zero_of_nonpos (by linarith)] at hpos
    exact lt_irrefl _ hpos
  have hsqt : √(1 + t ^ 2 * g⁻¹ ^ 2) ^ 2 = 1 + t ^ 2 * g⁻¹ ^ 2 := sq_sqrt (by positivity)
  have hpt : 0 < √(1 + t ^ 2 * g⁻¹ ^ 2) := sqrt_pos.mpr (by positivity)
  rw [ringF_gt hg, arccos_eq_pi_div_two_sub_arcsin, hc, one_div, tnfwL_arsinh hg0 ht,
    add_comm (t ^ 2) (g ^ 2), sqrt_scale hg0]
  generalize √(1 + -1 * g⁻¹ ^ 2) = s at *
  generalize √(1 + t ^ 2 * g⁻¹ ^ 2) = v at *
  generalize arcsin g⁻¹ = a
  generalize arsinh (t * g⁻¹) = b
  have hs2 : s ^ 2 * g ^ 2 = g ^ 2 - 1 := by rw [hsq]; field_simp; ring
  have hv2 : v ^ 2 * g ^ 2 = g ^ 2 + t ^ 2 := by rw [hsqt]; field_simp
  have hk : -(1 + t ^ 2) * g⁻¹ / (s + v) = g * (s - v) := by
    field_simp
    linear_combination hv2 - hs2
  rw [hk]
  have hk2 : 2 * (g ^ 2 - 1) * ((π / 2 - a) / (g * s)) = 2 * (g * s) * (π / 2 - a) := by
    rw [← hs2]; field_simp
  rw [show (t ^ 2 + 1 + 2 * (g ^ 2 - 1)) * ((π / 2 - a) / (g * s))
    = (t ^ 2 + 1) * ((π / 2 - a) / (g * s)) + 2 * (g ^ 2 - 1) * ((π / 2 - a) / (g * s)) by ring, hk2]
  field_simp
  ring

/-- The factor the total mass is divided by is positive, whatever the truncation. -/
theorem tnfw_norm_pos {t : ℝ} (ht : 0 < t) : 0 < (t ^ 2 - 1) * log t + π * t - (t ^ 2 + 1) := by
  have hpi := pi_gt_three
  have hl := one_sub_inv_le_log_of_pos ht
  have hu := log_le_sub_one_of_pos ht
  rcases le_total 1 t with h | h
  · have h1 : (t ^ 2 - 1) * (1 - t⁻¹) ≤ (t ^ 2 - 1) * log t :=
      mul_le_mul_of_nonneg_left hl (by nlinarith)
    have h2 : (t ^ 2 - 1) * (1 - t⁻¹) = t ^ 2 - t - 1 + t⁻¹ := by field_simp; ring
    have h3 : 0 < t⁻¹ := inv_pos.mpr ht
    nlinarith
  · have h1 : (1 - t ^ 2) * log t ≤ (1 - t ^ 2) * (t - 1) :=
      mul_le_mul_of_nonneg_left hu (by nlinarith)
    have h2 : 0 < t * (π - 2 + (1 - t) ^ 2) := by
      have : 0 < π - 2 + (1 - t) ^ 2 := by nlinarith [sq_nonneg (1 - t)]
      positivity
    nlinarith

/-- The bracket of the enclosed mass vanishes at the centre. -/
theorem tendsto_tnfwBracket_zero {t : ℝ} (ht : 0 < t) :
    Tendsto (fun g : ℝ => (t ^ 2 + 1 + 2 * (g ^ 2 - 1)) * ringF g + t * π + (t ^ 2 - 1) * log t
      + √(t ^ 2 + g ^ 2) * (-π + (t ^ 2 - 1) * tnfwL g t / t)) (𝓝[>] 0) (𝓝 0) := by
  have hg : Tendsto (fun g : ℝ => g) (𝓝[>] 0) (𝓝 0) := tendsto_nhdsWithin_of_tendsto_nhds tendsto_id
  have hlg : Tendsto (fun g : ℝ => log g * g) (𝓝[>] 0) (𝓝 0) := by
    simpa only [rpow_one] using tendsto_log_mul_rpow_nhdsGT_zero zero_lt_one
  have hlg2 : Tendsto (fun g : ℝ => log g * g ^ 2) (𝓝[>] 0) (𝓝 0) := by
    have := hlg.mul hg
    rw [mul_zero] at this
    refine this.congr fun g => by ring
  have hc : Tendsto (fun g : ℝ => √(1 - g ^ 2)) (𝓝[>] 0) (𝓝 1) := by
    have := ((hg.pow 2).const_sub 1).sqrt
    simpa using this
  have hS : Tendsto (fun g : ℝ => √(t ^ 2 + g ^ 2)) (𝓝[>] 0) (𝓝 t) := by
    have := ((hg.pow 2).const_add (t ^ 2)).sqrt
    simpa [sqrt_sq ht.le] using this
  have hl1 : Tendsto (fun g : ℝ => log (1 + √(1 - g ^ 2))) (𝓝[>] 0) (𝓝 (log 2)) := by
    have := (hc.const_add 1).log (by norm_num)
    simpa [show (1:ℝ) + 1 = 2 by norm_num] using this
  have hl2 : Tendsto (fun g : ℝ => log (t + √(t ^ 2 + g ^ 2))) (𝓝[>] 0) (𝓝 (log (t + t))) :=
    (hS.const_add t).log (by positivity)
  have hlim : Tendsto (fun g : ℝ =>
      2 * (g ^ 2 * log (1 + √(1 - g ^ 2)) - log g * g ^ 2) / √(1 - g ^ 2)
      + t * π - π * √(t ^ 2 + g ^ 2)
      + (t ^ 2 - 1) * (log (1 + √(1 - g ^ 2)) / √(1 - g ^ 2) + log t
        - √(t ^ 2 + g ^ 2) / t * log (t + √(t ^ 2 + g ^ 2))
        + log g * g ^ 2 * (1 / (t * (√(t ^ 2 + g ^ 2) + t))
          - 1 / (√(1 - g ^ 2) * (1 + √(1 - g ^ 2)))))) (𝓝[>] 0)
      (𝓝 (2 * (0 ^ 2 * log 2 - 0) / 1 + t * π - π * t
      + (t ^ 2 - 1) * (log 2 / 1 + log t - t / t * log (t + t)
        + 0 * (1 / (t * (t + t)) - 1 / (1 * (1 + 1)))))) := by
    refine ((((((hg.pow 2).mul hl1).sub hlg2).const_mul 2).div hc (by norm_num)).add_const _
      |>.sub (hS.const_mul π)).add (Tendsto.const_mul _ ?_)
    refine (((hl1.div hc (by norm_num)).add_const _).sub ((hS.div_const t).mul hl2)).add
      (hlg2.mul ?_)
    exact (tendsto_const_nhds.div ((hS.add_const t).const_mul t) (by positivity)).sub
      (tendsto_const_nhds.div (hc.mul (hc.const_add 1)) (by norm_num))
  have he : 2 * (0 ^ 2 * log 2 - 0) / 1 + t * π - π * t
      + (t ^ 2 - 1) * (log 2 / 1 + log t - t / t * log (t + t)
        + 0 * (1 / (t * (t + t)) - 1 / (1 * (1 + 1)))) = 0 := by
    rw [show t + t = 2 * t by ring, log_mul (by norm_num) ht.ne', div_self ht.ne']
    ring
  rw [he] at hlim
  refine hlim.congr' ?_
  have hlt : ∀ᶠ g : ℝ in 𝓝[>] 0, g < 1 := nhdsWithin_le_nhds (Iio_mem_nhds (by norm_num))
  filter_upwards [self_mem_nhdsWithin, hlt] with g hg0 hg1
  have hg0' : 0 < g := hg0
  obtain ⟨hcp, hc2⟩ := sqrt_one_sub_sq hg0' hg1
  have hSp : 0 < √(t ^ 2 + g ^ 2) := sqrt_pos.mpr (by positivity)
  have hS2 : √(t ^ 2 + g ^ 2) ^ 2 = t ^ 2 + g ^ 2 := sq_sqrt (by positivity)
  have har : arcosh (1 / g) = log (1 + √(1 - g ^ 2)) - log g := by
    rw [arcosh, show √((1 / g) ^ 2 - 1) = √(1 - g ^ 2) / g by
      rw [show (1 / g) ^ 2 - 1 = (1 - g ^ 2) / g ^ 2 by field_simp, sqrt_div' _ (by positivity),
        sqrt_sq hg0'.le], ← add_div, log_div (by positivity) hg0'.ne']
  rw [ringF_lt hg1, har, tnfwL, log_div hg0'.ne' (by positivity)]
  generalize √(1 - g ^ 2) = c at *
  generalize √(t ^ 2 + g ^ 2) = S at *
  generalize log (1 + c) = A
  generalize log (t + S) = B
  generalize log g = G
  generalize log t = T
  have k1 : g ^ 2 * (1 / (t * (S + t))) = S / t - 1 := by
    field_simp
    linear_combination -hS2
  have k2 : g ^ 2 * (1 / (c * (1 + c))) = 1 / c - 1 := by
    field_simp
    linear_combination hc2
  have k3 : G * g ^ 2 * (1 / (t * (S + t)) - 1 / (c * (1 + c))) = G * (S / t - 1 / c) := by
    linear_combination G * k1 - G * k2
  rw [k3]
  field_simp
  ring

end Caustics
