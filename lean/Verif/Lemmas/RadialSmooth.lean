import Mathlib.Analysis.InnerProductSpace.Calculus
import Mathlib.Analysis.Calculus.ContDiff.RCLike
import Mathlib.Analysis.Complex.Basic

/-! A radial field `φ(|w|) w` is smooth at the centre too. -/

namespace Caustics
open Filter Topology

theorem radial_contDiff {φ : ℝ → ℝ} (hφ : ∀ r, 0 ≤ r → ContDiffAt ℝ 1 φ r) : ContDiff ℝ 1 fun w : ℂ => φ ‖w‖ • w := by
  have hoff : ∀ w : ℂ, w ≠ 0 → ContDiffAt ℝ 1 (fun w : ℂ => φ ‖w‖ • w) w := fun w hw =>
    ((hφ _ (norm_nonneg _)).comp w (contDiffAt_norm ℝ hw)).smul contDiffAt_id
  have h0 : HasFDerivAt (fun w : ℂ => φ ‖w‖ • w) (φ 0 • ContinuousLinearMap.id ℝ ℂ) 0 := by
    rw [hasFDerivAt_iff_isLittleO_nhds_zero, Asymptotics.isLittleO_iff]
    intro c hc
    have hcont : ContinuousAt (fun w : ℂ => φ ‖w‖) 0 := by
      refine ContinuousAt.comp (g := φ) ?_ continuous_norm.continuousAt
      exact (hφ _ (norm_nonneg _)).continuousAt
    filter_upwards [Metric.continuousAt_iff'.1 hcont c hc] with w hw
    rw [dist_eq_norm, norm_zero] at hw
    simp only [zero_add, norm_zero, smul_zero, sub_zero, smul_apply, ContinuousLinearMap.id_apply, ← sub_smul, norm_smul]
    exact mul_le_mul_of_nonneg_right hw.le (norm_nonneg _)
  rw [contDiff_one_iff_fderiv]
  refine ⟨fun w => ?_, continuous_iff_continuousAt.2 fun w => ?_⟩
  · rcases eq_or_ne w 0 with rfl | hw
    · exact h0.differentiableAt
    · exact (hoff w hw).differentiableAt one_ne_zero
  · rcases eq_or_ne w 0 with rfl | hw
    · rw [ContinuousAt, h0.fderiv]
      have hφc : ContinuousAt (fun w : ℂ => φ ‖w‖) 0 :=
        ContinuousAt.comp (g := φ) (hφ _ (norm_nonneg _)).continuousAt continuous_norm.continuousAt
      have hφd : ContinuousAt (fun w : ℂ => deriv φ ‖w‖) 0 := by
        refine ContinuousAt.comp (g := deriv φ) ?_ continuous_norm.continuousAt
        have := (hφ _ (norm_nonneg (0 : ℂ))).fderiv_right (m := 0) (by norm_num)
        exact ((ContinuousLinearMap.apply ℝ ℝ (1 : ℝ)).continuous.continuousAt.comp this.continuousAt)
      rw [tendsto_iff_norm_sub_tendsto_zero]
      have hlim : Tendsto (fun w : ℂ => ‖φ ‖w‖ - φ 0‖ + |deriv φ ‖w‖| * ‖w‖) (𝓝 0) (𝓝 0) := by
        have h1 : Tendsto (fun w : ℂ => ‖φ ‖w‖ - φ 0‖) (𝓝 0) (𝓝 0) := by
          have := (hφc.sub continuousAt_const).norm.tendsto (f := fun w : ℂ => ‖φ ‖w‖ - φ 0‖)
          simpa using this
        have h2 : Tendsto (fun w : ℂ => |deriv φ ‖w‖| * ‖w‖) (𝓝 0) (𝓝 (|deriv φ ‖(0 : ℂ)‖| * ‖(0 : ℂ)‖)) :=
          hφd.abs.tendsto.mul continuous_norm.continuousAt.tendsto
        rw [norm_zero, mul_zero] at h2
        simpa using h1.add h2
      refine squeeze_zero (fun _ => norm_nonneg _) (fun w => ?_) hlim
      rcases eq_or_ne w 0 with rfl | hw
      · rw [h0.fderiv]
        simp
      · have hn : HasFDerivAt (fun w : ℂ => ‖w‖) (fderiv ℝ (fun w : ℂ => ‖w‖) w) w :=
          ((contDiffAt_norm ℝ hw : ContDiffAt ℝ 1 _ w).differentiableAt one_ne_zero).hasFDerivAt
        have hd : HasDerivAt φ (deriv φ ‖w‖) ‖w‖ :=
          ((hφ _ (norm_nonneg w)).differentiableAt one_ne_zero).hasDerivAt
        have h1 := (hd.comp_hasFDerivAt w hn).smul (hasFDerivAt_id w)
        have h2 : fderiv ℝ (fun w : ℂ => φ ‖w‖ • w) w = φ ‖w‖ • ContinuousLinearMap.id ℝ ℂ +
            (deriv φ ‖w‖ • fderiv ℝ (fun w : ℂ => ‖w‖) w).smulRight w := h1.fderiv
        rw [h2]
        have h3 : ‖fderiv ℝ (fun w : ℂ => ‖w‖) w‖ ≤ 1 := by
          have := norm_fderiv_le_of_lipschitz ℝ (lipschitzWith_one_norm (E := ℂ)) (x₀ := w)
          simpa using this
        rw [add_sub_right_comm, ← sub_smul]
        refine (norm_add_le _ _).trans (add_le_add ?_ ?_)
        · rw [norm_smul]
          exact mul_le_of_le_one_right (norm_nonneg _) ContinuousLinearMap.norm_id_le
        · rw [ContinuousLinearMap.norm_smulRight_apply, norm_smul]
          refine mul_le_mul_of_nonneg_right ?_ (norm_nonneg _)
          exact mul_le_of_le_one_right (norm_nonneg _) h3
    · have := (hoff w hw).fderiv_right (m := 0) (by norm_num)
      exact this.continuousAt
end Caustics
