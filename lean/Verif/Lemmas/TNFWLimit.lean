import Verif.Lemmas.Halo
import Verif.Model.TNFWMass
import Mathlib.Analysis.SpecialFunctions.Log.Deriv
import Mathlib.Analysis.SpecialFunctions.Pow.Asymptotics
import Mathlib.Topology.Algebra.Order.Field
import Mathlib.Tactic.Linarith

/-! Limits of the truncated NFW profile: truncation radius to infinity, and radius to infinity. -/

open Real Filter Topology

namespace Caustics

/-- Ratio of `√(τ² + u)` to `τ`. -/
noncomputable def tq (u t : ℝ) : ℝ := √(t ^ 2 + u) / t

theorem tq_ge {u t : ℝ} (hu : 0 ≤ u) (ht : 0 < t) : 1 ≤ tq u t := by
  rw [tq, le_div_iff₀ ht, one_mul]
  exact le_sqrt_of_sq_le (by linarith)

theorem tq_sub_le {u t : ℝ} (hu : 0 ≤ u) (ht : 0 < t) : tq u t - 1 ≤ u / t ^ 2 := by
  have h1 := tq_ge hu ht
  have h2 : tq u t ^ 2 = 1 + u / t ^ 2 := by
    rw [tq, div_pow, sq_sqrt (by positivity)]; field_simp
  nlinarith

theorem tendsto_inv_top : Tendsto (fun t : ℝ => t⁻¹) atTop (𝓝 0) := tendsto_inv_atTop_zero

theorem tendsto_log_div : Tendsto (fun t : ℝ => t⁻¹ * log t) atTop (𝓝 0) := by
  have h : Tendsto (fun t : ℝ => log t / t) atTop (𝓝 0) := by
    simpa using Real.tendsto_pow_log_div_mul_add_atTop 1 0 1 one_ne_zero
  refine h.congr fun t => ?_
  rw [div_eq_inv_mul]

theorem tendsto_log_tq {u : ℝ} (hu : 0 ≤ u) :
    Tendsto (fun t : ℝ => log t * (tq u t - 1)) atTop (𝓝 0) := by
  have hb : Tendsto (fun t : ℝ => (t⁻¹ * log t) * (u * t⁻¹)) atTop (𝓝 (0 * (u * 0))) :=
    tendsto_log_div.mul (tendsto_inv_top.const_mul u)
  rw [zero_mul] at hb
  refine tendsto_of_tendsto_of_tendsto_of_le_of_le' tendsto_const_nhds hb ?_ ?_
  · filter_upwards [eventually_ge_atTop 1] with t ht
    exact mul_nonneg (log_nonneg ht) (by linarith [tq_ge hu (by linarith : (0:ℝ) < t)])
  · filter_upwards [eventually_ge_atTop 1] with t ht
    have h0 : 0 < t := by linarith
    have := mul_le_mul_of_nonneg_left (tq_sub_le hu h0) (log_nonneg ht)
    refine this.trans (le_of_eq ?_)
    field_simp

theorem tendsto_tq {u : ℝ} (hu : 0 ≤ u) : Tendsto (fun t : ℝ => tq u t - 1) atTop (𝓝 0) := by
  have hb : Tendsto (fun t : ℝ => u * t⁻¹) atTop (𝓝 (u * 0)) := tendsto_inv_top.const_mul u
  rw [mul_zero] at hb
  refine tendsto_of_tendsto_of_tendsto_of_le_of_le' tendsto_const_nhds hb ?_ ?_
  · filter_upwards [eventually_ge_atTop 1] with t ht
    linarith [tq_ge hu (by linarith : (0:ℝ) < t)]
  · filter_upwards [eventually_ge_atTop 1] with t ht
    have h0 : 0 < t := by linarith
    refine (tq_sub_le hu h0).trans ?_
    rw [← div_eq_mul_inv]
    exact div_le_div_of_nonneg_left hu h0 (by nlinarith)

/-- `log (1 + q) - log 2`. -/
noncomputable def tw (u t : ℝ) : ℝ := log (1 + tq u t) - log 2

theorem tw_bounds {u t : ℝ} (hu : 0 ≤ u) (ht : 0 < t) : 0 ≤ tw u t ∧ tw u t ≤ tq u t - 1 := by
  have h1 := tq_ge hu ht
  rw [tw, ← log_div (by linarith) (by norm_num)]
  refine ⟨log_nonneg (by linarith), ?_⟩
  have := log_le_sub_one_of_pos (show 0 < (1 + tq u t) / 2 by linarith)
  linarith

theorem tendsto_tw {u : ℝ} (hu : 0 ≤ u) : Tendsto (tw u) atTop (𝓝 0) :=
  tendsto_of_tendsto_of_tendsto_of_le_of_le' tendsto_const_nhds (tendsto_tq hu)
    ((eventually_gt_atTop 0).mono fun _ ht => (tw_bounds hu ht).1)
    ((eventually_gt_atTop 0).mono fun _ ht => (tw_bounds hu ht).2)

theorem tendsto_log_tw {u : ℝ} (hu : 0 ≤ u) :
    Tendsto (fun t : ℝ => log t * tw u t) atTop (𝓝 0) :=
  tendsto_of_tendsto_of_tendsto_of_le_of_le' tendsto_const_nhds (tendsto_log_tq hu)
    ((eventually_ge_atTop 1).mono fun _ ht =>
      mul_nonneg (log_nonneg ht) (tw_bounds hu (by linarith)).1)
    ((eventually_ge_atTop 1).mono fun _ ht =>
      mul_le_mul_of_nonneg_left (tw_bounds hu (by linarith)).2 (log_nonneg ht))

theorem sqrt_eq_tq {u t : ℝ} (ht : 0 < t) : √(t ^ 2 + u) = t * tq u t := by
  rw [tq]; field_simp

theorem log_add_sqrt {u t : ℝ} (hu : 0 ≤ u) (ht : 0 < t) :
    log (t + √(t ^ 2 + u)) = log t + log 2 + tw u t := by
  rw [sqrt_eq_tq ht, tw, show t + t * tq u t = t * (1 + tq u t) by ring,
    log_mul ht.ne' (by linarith [tq_ge hu ht])]
  ring

theorem tnfwL_split {g t : ℝ} (hg : 0 < g) (ht : 0 < t) :
    tnfwL g t = log (g / 2) - log t - tw (g ^ 2) t := by
  rw [tnfwL, log_div hg.ne' (by positivity), log_add_sqrt (by positivity) ht,
    log_div hg.ne' (by norm_num)]
  ring

/-- The enclosed mass of the truncated profile tends to that of the untruncated one. -/
theorem tendsto_tnfwMass {r Rs : ℝ} (M0 : ℝ) (hr : 0 < r) (hRs : 0 < Rs)
    (hw : 1e-2 < |r / Rs - 1|) :
    Tendsto (fun t => tnfwMassEnclosed r Rs t M0) atTop (𝓝 (M0 * nfwH (r / Rs))) := by
  have hg : 0 < r / Rs := by positivity
  simp only [tnfwMassEnclosed, tnfwF_eq hw, nfwH_eq (show 1e-6 < |r / Rs - 1| by norm_num at hw ⊢; linarith)]
  generalize r / Rs = g at *
  generalize ringF g = F
  have hu : 0 ≤ g ^ 2 := by positivity
  have h1 := tendsto_inv_top
  have h2 := tendsto_log_div
  have h3 := tendsto_tq hu
  have h4 := tendsto_log_tq hu
  have h5 := tendsto_tw hu
  have h6 := tendsto_log_tw hu
  have hlim : Tendsto (fun t : ℝ => M0 * (1 / (1 + t⁻¹ ^ 2) ^ 2) *
      ((1 + t⁻¹ ^ 2 + 2 * (g ^ 2 - 1) * t⁻¹ ^ 2) * F + t⁻¹ * π
        - (1 - t⁻¹ ^ 2) * (log t * (tq (g ^ 2) t - 1))
        + (tq (g ^ 2) t - 1 + 1) * (-π * t⁻¹ + (1 - t⁻¹ ^ 2) * (log (g / 2) - tw (g ^ 2) t))))
      atTop (𝓝 (M0 * (1 / (1 + 0 ^ 2) ^ 2) *
      ((1 + 0 ^ 2 + 2 * (g ^ 2 - 1) * 0 ^ 2) * F + 0 * π
        - (1 - 0 ^ 2) * 0
        + (0 + 1) * (-π * 0 + (1 - 0 ^ 2) * (log (g / 2) - 0))))) := by
    refine (tendsto_const_nhds.mul (tendsto_const_nhds.div ((tendsto_const_nhds.add (h1.pow 2)).pow 2)
      (by norm_num))).mul ?_
    refine ((((tendsto_const_nhds.add (h1.pow 2)).add ((h1.pow 2).const_mul _)).mul_const F).add
      (h1.mul_const π)).sub ((tendsto_const_nhds.sub (h1.pow 2)).mul h4) |>.add ?_
    exact (h3.add_const 1).mul ((h1.const_mul _).add ((tendsto_const_nhds.sub (h1.pow 2)).mul
      (tendsto_const_nhds.sub h5)))
  have he : M0 * (1 / (1 + 0 ^ 2) ^ 2) *
      ((1 + 0 ^ 2 + 2 * (g ^ 2 - 1) * 0 ^ 2) * F + 0 * π
        - (1 - 0 ^ 2) * 0
        + (0 + 1) * (-π * 0 + (1 - 0 ^ 2) * (log (g / 2) - 0))) = M0 * (log (g / 2) + F) := by
    ring
  rw [he] at hlim
  refine hlim.congr' ?_
  filter_upwards [eventually_gt_atTop 0] with t ht
  rw [tnfwL_split hg ht, sqrt_eq_tq ht]
  generalize tq (g ^ 2) t = q
  generalize tw (g ^ 2) t = w
  generalize log t = T
  field_simp
  ring

/-- The bracket of the convergence of the truncated profile. -/
theorem tendsto_tnfwKappa {g : ℝ} (F : ℝ) (hg : 0 < g) :
    Tendsto (fun t : ℝ => t ^ 2 / (t ^ 2 + 1) ^ 2 * ((t ^ 2 + 1) * (1 - F) / (g ^ 2 - 1) + 2 * F
      + -π / √(t ^ 2 + g ^ 2) + (t ^ 2 - 1) * tnfwL g t / (t * √(t ^ 2 + g ^ 2)))) atTop
      (𝓝 ((1 - F) / (g ^ 2 - 1))) := by
  have hu : 0 ≤ g ^ 2 := by positivity
  have h1 := tendsto_inv_top
  have h2 := tendsto_log_div
  have h3 := tendsto_tq hu
  have h5 := tendsto_tw hu
  have hq : Tendsto (fun t : ℝ => (tq (g ^ 2) t - 1 + 1)) atTop (𝓝 (0 + 1)) := h3.add_const 1
  have hlim : Tendsto (fun t : ℝ => (1 / (1 + t⁻¹ ^ 2) ^ 2) *
      ((1 + t⁻¹ ^ 2) * ((1 - F) / (g ^ 2 - 1)) + 2 * F * t⁻¹ ^ 2
        + -π * t⁻¹ ^ 3 / (tq (g ^ 2) t - 1 + 1)
        + (1 - t⁻¹ ^ 2) * t⁻¹ * (t⁻¹ * log (g / 2) - t⁻¹ * log t - t⁻¹ * tw (g ^ 2) t)
          / (tq (g ^ 2) t - 1 + 1)))
      atTop (𝓝 ((1 / (1 + 0 ^ 2) ^ 2) *
      ((1 + 0 ^ 2) * ((1 - F) / (g ^ 2 - 1)) + 2 * F * 0 ^ 2
        + -π * 0 ^ 3 / (0 + 1)
        + (1 - 0 ^ 2) * 0 * (0 * log (g / 2) - 0 - 0 * 0) / (0 + 1)))) := by
    refine (tendsto_const_nhds.div ((tendsto_const_nhds.add (h1.pow 2)).pow 2)
      (by norm_num)).mul ?_
    refine ((((tendsto_const_nhds.add (h1.pow 2)).mul_const _).add ((h1.pow 2).const_mul _)).add
      (((h1.pow 3).const_mul _).div hq (by norm_num))).add ?_
    exact (((tendsto_const_nhds.sub (h1.pow 2)).mul h1).mul
      (((h1.mul_const _).sub h2).sub (h1.mul h5))).div hq (by norm_num)
  have he : (1 / (1 + 0 ^ 2) ^ 2) *
      ((1 + 0 ^ 2) * ((1 - F) / (g ^ 2 - 1)) + 2 * F * 0 ^ 2
        + -π * 0 ^ 3 / (0 + 1)
        + (1 - 0 ^ 2) * 0 * (0 * log (g / 2) - 0 - 0 * 0) / (0 + 1)) = (1 - F) / (g ^ 2 - 1) := by
    ring
  rw [he] at hlim
  refine hlim.congr' ?_
  filter_upwards [eventually_gt_atTop 0] with t ht
  rw [tnfwL_split hg ht, sqrt_eq_tq ht]
  have hq0 : tq (g ^ 2) t ≠ 0 := by linarith [tq_ge hu ht]
  generalize tq (g ^ 2) t = q at *
  generalize tw (g ^ 2) t = w
  generalize log t = T
  rw [mul_div_assoc (t ^ 2 + 1) (1 - F)]
  generalize (1 - F) / (g ^ 2 - 1) = D
  rw [sub_add_cancel]
  field_simp

/-- The bracket of the potential as a polynomial in six quantities that tend to zero, over
`(1 + e²)²`; `A = log (g / 2)`, `l = log 2`. -/
noncomputable def potQ (g F P A l : ℝ) (v : ℝ × ℝ × ℝ × ℝ × ℝ × ℝ) : ℝ :=
  1 / (1 + v.1 ^ 2) ^ 2 * (
      2 * π * (v.1 * (-v.2.2.1) + v.2.1 + v.1 * (l + v.2.2.2.2.1))
      + 2 * (1 - v.1 ^ 2) * (1 + v.2.2.1) * (A - v.2.2.2.2.1)
        - 2 * ((1 - v.1 ^ 2) * v.2.2.2.1 - v.1 * v.2.1)
      + (1 - v.1 ^ 2) * (A ^ 2 - 2 * A * v.2.2.2.2.1 + 2 * v.2.2.2.2.2 + v.2.2.2.2.1 ^ 2)
        + 2 * v.1 * v.2.1 * A - v.2.1 ^ 2
      + 4 * v.1 ^ 2 * (g ^ 2 - 1) * F + (1 - v.1 ^ 2) * P
      - 2 * (1 + v.1 ^ 2) * (A + l) - 2 * v.1 * v.2.1 * (A + l)
      + (2 * l * v.1 * v.2.1 + v.2.1 ^ 2) - 2 * v.1 * v.2.1 + 2 * v.1 ^ 2 * l + 2 * l
        - 2 * π * (v.1 * l + v.2.1))

theorem continuousAt_potQ (g F P A l : ℝ) : ContinuousAt (potQ g F P A l) (0, 0, 0, 0, 0, 0) := by
  unfold potQ
  exact ContinuousAt.mul (ContinuousAt.div (by fun_prop) (by fun_prop) (by norm_num)) (by fun_prop)

theorem potQ_zero (g F P A l : ℝ) : potQ g F P A l (0, 0, 0, 0, 0, 0) = A ^ 2 + P := by
  simp only [potQ]; ring

/-- The bracket of the potential of the truncated profile. -/
theorem tendsto_tnfwPot {g : ℝ} (F P : ℝ) (hg : 0 < g) :
    Tendsto (fun t : ℝ => 1 / (t ^ 2 + 1) ^ 2 *
      (2 * π * t ^ 2 * (t - √(t ^ 2 + g ^ 2) + t * log (t + √(t ^ 2 + g ^ 2)))
        + 2 * (t ^ 2 - 1) * t * √(t ^ 2 + g ^ 2) * tnfwL g t
        + t ^ 2 * (t ^ 2 - 1) * tnfwL g t ^ 2
        + 4 * t ^ 2 * (g ^ 2 - 1) * F + t ^ 2 * (t ^ 2 - 1) * P
        + t ^ 2 * ((t ^ 2 - 1) * log t - t ^ 2 - 1) * log (g ^ 2)
        - t ^ 2 * ((t ^ 2 - 1) * log t * log (4 * t) + 2 * log (t / 2)
          - 2 * t * (t - π) * log (2 * t)))) atTop
      (𝓝 (log (g / 2) ^ 2 + P)) := by
  have hu : 0 ≤ g ^ 2 := by positivity
  have h1 := tendsto_inv_top
  have h2 := tendsto_log_div
  have h3 := tendsto_tq hu
  have h4 := tendsto_log_tq hu
  have h5 := tendsto_tw hu
  have h6 := tendsto_log_tw hu
  have hQ := (continuousAt_potQ g F P (log (g / 2)) (log 2)).tendsto.comp
    (h1.prodMk_nhds (h2.prodMk_nhds (h3.prodMk_nhds (h4.prodMk_nhds (h5.prodMk_nhds h6)))))
  rw [potQ_zero] at hQ
  refine hQ.congr' ?_
  filter_upwards [eventually_gt_atTop 0] with t ht
  have hl4 : log (4 * t) = 2 * log 2 + log t := by
    rw [log_mul (by norm_num) ht.ne', show (4:ℝ) = 2 ^ 2 by norm_num, log_pow]; norm_num
  rw [tnfwL_split hg ht, log_add_sqrt hu ht, sqrt_eq_tq ht, hl4, log_div ht.ne' (by norm_num),
    log_mul (by norm_num) ht.ne', log_pow, show log g = log (g / 2) + log 2 by
      rw [log_div hg.ne' (by norm_num)]; ring]
  simp only [Function.comp_apply, potQ]
  generalize tq (g ^ 2) t = q
  generalize tw (g ^ 2) t = w
  generalize log t = T
  generalize log (g / 2) = A
  generalize log 2 = l
  push_cast
  field_simp
  ring

end Caustics
