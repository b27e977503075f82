import Verif.Lemmas.Projection
import Verif.Lemmas.TNFWTotal
import Verif.Lemmas.RingBounds
import Mathlib.Analysis.Calculus.Deriv.MeanValue

/-! The mass a truncated NFW halo encloses in projection increases from zero. -/

open Real Filter Topology

namespace Caustics

/-- The bracket of `mass_enclosed_2d_tnfw` with the exact profile function. -/
noncomputable def tnfwMb (t g : ℝ) : ℝ :=
  (t ^ 2 + 1 + 2 * (g ^ 2 - 1)) * ringF g + t * π + (t ^ 2 - 1) * log t
    + √(t ^ 2 + g ^ 2) * (-π + (t ^ 2 - 1) * tnfwL g t / t)

theorem continuousAt_ringF_one : ContinuousAt ringF 1 := by
  have e : ringF 1 = 1 := by norm_num [ringF]
  have hl : Tendsto (fun x : ℝ => (4 - x ^ 2) / 3) (𝓝 1) (𝓝 1) := by
    have : ContinuousAt (fun x : ℝ => (4 - x ^ 2) / 3) 1 := by fun_prop
    have h := this.tendsto
    norm_num at h
    exact h
  have hu : Tendsto (fun x : ℝ => (2 * x ^ 2 + 1) / (3 * x ^ 2)) (𝓝 1) (𝓝 1) := by
    have : ContinuousAt (fun x : ℝ => (2 * x ^ 2 + 1) / (3 * x ^ 2)) 1 := by
      fun_prop (disch := norm_num)
    have h := this.tendsto
    norm_num at h
    exact h
  unfold ContinuousAt
  rw [e]
  refine tendsto_of_tendsto_of_tendsto_of_le_of_le' hl hu ?_ ?_
  · filter_upwards [lt_mem_nhds one_pos] with x hx
    rcases eq_or_ne x 1 with rfl | h
    · rw [e]; norm_num
    · exact (ringF_lower hx h).le
  · filter_upwards [lt_mem_nhds one_pos] with x hx
    rcases eq_or_ne x 1 with rfl | h
    · rw [e]; norm_num
    · exact (ringF_upper hx h).le

theorem hasDerivAt_tnfwMb {t g : ℝ} (ht : 0 < t) (hg : 0 < g) (h1 : g ≠ 1) :
    HasDerivAt (tnfwMb t) ((t ^ 2 + 1) ^ 2 / t ^ 2 * g * tnfwK t g) g := by
  have hne : g ^ 2 - 1 ≠ 0 := by
    intro h
    apply h1
    have : (g - 1) * (g + 1) = 0 := by linear_combination h
    rcases mul_eq_zero.mp this with h | h <;> linarith
  have hF := hasDerivAt_ringF hg h1
  have hL := hasDerivAt_tnfwL hg ht
  have hq := hasDerivAt_sqrt_add_sq (a := t ^ 2) (x := g) (by positivity)
  have hw : 0 < √(t ^ 2 + g ^ 2) := sqrt_pos.mpr (by positivity)
  have h2 : HasDerivAt (fun g : ℝ => t ^ 2 + 1 + 2 * (g ^ 2 - 1)) (4 * g) g := by
    refine (((((hasDerivAt_id g).pow 2).sub_const 1).const_mul 2).const_add _).congr_deriv ?_
    simp; ring
  have hd := ((((h2.mul hF).add_const (t * π)).add_const ((t ^ 2 - 1) * log t)).add
    (hq.mul (((hL.const_mul (t ^ 2 - 1)).div_const t).const_add (-π))))
  refine hd.congr_deriv ?_
  rw [tnfwK, ringG, if_neg h1]
  generalize √(t ^ 2 + g ^ 2) = w at *
  generalize tnfwL g t = L
  generalize ringF g = F
  field_simp
  ring

theorem continuousOn_tnfwMb {t : ℝ} (ht : 0 < t) : ContinuousOn (tnfwMb t) (Set.Ioi 0) := by
  intro g hg
  rw [Set.mem_Ioi] at hg
  apply ContinuousAt.continuousWithinAt
  rcases eq_or_ne g 1 with rfl | h
  · have hL := (hasDerivAt_tnfwL one_pos ht).continuousAt
    have hF := continuousAt_ringF_one
    unfold tnfwMb
    have h1 : ContinuousAt (fun g : ℝ => t ^ 2 + 1 + 2 * (g ^ 2 - 1)) 1 := by fun_prop
    have h2 : ContinuousAt (fun g : ℝ => √(t ^ 2 + g ^ 2)) 1 := by fun_prop
    exact (((h1.mul hF).add continuousAt_const).add continuousAt_const).add
      (h2.mul (continuousAt_const.add ((continuousAt_const.mul hL).div_const t)))
  · exact (hasDerivAt_tnfwMb ht hg h).continuousAt

theorem tnfwMb_mono {t : ℝ} (ht : 0 < t) : StrictMonoOn (tnfwMb t) (Set.Ioi 0) := by
  have hd : ∀ g, 0 < g → g ≠ 1 → 0 < deriv (tnfwMb t) g := fun g hg h1 => by
    rw [(hasDerivAt_tnfwMb ht hg h1).deriv]
    have := tnfwK_pos hg ht
    positivity
  have a : StrictMonoOn (tnfwMb t) (Set.Ioc 0 1) :=
    strictMonoOn_of_deriv_pos (convex_Ioc 0 1)
      ((continuousOn_tnfwMb ht).mono Set.Ioc_subset_Ioi_self) fun g hg => by
        rw [interior_Ioc] at hg
        exact hd g hg.1 hg.2.ne
  have b : StrictMonoOn (tnfwMb t) (Set.Ici 1) :=
    strictMonoOn_of_deriv_pos (convex_Ici 1)
      ((continuousOn_tnfwMb ht).mono fun g hg => Set.mem_Ioi.2 (zero_lt_one.trans_le hg)) fun g hg => by
        rw [interior_Ici] at hg
        exact hd g (zero_lt_one.trans hg) (ne_of_gt hg)
  have := a.union b (c := 1) ⟨⟨one_pos, le_rfl⟩, fun x hx => hx.2⟩ ⟨Set.mem_Ici.2 le_rfl, fun x hx => hx⟩
  rwa [Set.Ioc_union_Ici_eq_Ioi one_pos] at this

theorem tnfwMb_pos {t g : ℝ} (ht : 0 < t) (hg : 0 < g) : 0 < tnfwMb t g := by
  have h := tendsto_tnfwBracket_zero ht
  have hle : 0 ≤ tnfwMb t (g / 2) := by
    refine le_of_tendsto h ?_
    filter_upwards [Ioo_mem_nhdsGT (half_pos hg)] with x hx
    exact (tnfwMb_mono ht).monotoneOn hx.1 (half_pos hg) hx.2.le
  exact hle.trans_lt ((tnfwMb_mono ht) (Set.mem_Ioi.2 (half_pos hg)) (Set.mem_Ioi.2 hg) (by linarith))

theorem tnfwMb_lt {t g : ℝ} (ht : 0 < t) (hg : 0 < g) :
    tnfwMb t g < (t ^ 2 - 1) * log t + π * t - (t ^ 2 + 1) := by
  have h := tendsto_tnfwBracket ht
  have hle : tnfwMb t (g + 1) ≤ (t ^ 2 - 1) * log t + π * t - (t ^ 2 + 1) := by
    refine ge_of_tendsto h ?_
    filter_upwards [eventually_ge_atTop (g + 1)] with x hx
    exact (tnfwMb_mono ht).monotoneOn (by simp only [Set.mem_Ioi]; linarith)
      (by simp only [Set.mem_Ioi]; linarith) hx
  exact ((tnfwMb_mono ht) (Set.mem_Ioi.2 hg) (by simp only [Set.mem_Ioi]; linarith) (by linarith)).trans_le hle

/-- Away from the 1% ring, and on the scale radius, the code evaluates the exact profile. -/
theorem tnfwMassEnclosed_eq {r Rs t M0 : ℝ} (hw : 1e-2 < |r / Rs - 1| ∨ r / Rs = 1) :
    tnfwMassEnclosed r Rs t M0 = M0 * (t ^ 2 / (t ^ 2 + 1) ^ 2) * tnfwMb t (r / Rs) := by
  have hF : tnfwF (r / Rs) = ringF (r / Rs) := by
    rcases hw with hw | hw
    · exact tnfwF_eq hw
    · rw [hw]; norm_num [tnfwF, ringF]
  simp only [tnfwMassEnclosed, hF, tnfwMb]

end Caustics
