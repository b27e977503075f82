import Verif.Lemmas.TNFWMono
import Verif.Model.TNFWMass

/-! How the truncated NFW profile depends on the truncation radius. -/

open Real Filter Topology

namespace Caustics

theorem tnfwK_mono_tau {R t t' : ℝ} (hR : 0 < R) (ht : 0 < t) (h : t < t') : tnfwK t R < tnfwK t' R := by
  refine los_lt (fun _ hz => hasDerivAt_losT hR ht hz) (fun _ hz => hasDerivAt_losT hR (ht.trans h) hz)
    (fun z _ => ?_) ((losT_zero hR t).trans (losT_zero hR t').symm) (tendsto_losT hR ht)
    (tendsto_losT hR (ht.trans h))
  have hr := losR_pos hR z
  generalize losR R z = r at *
  refine mul_lt_mul_of_pos_left ?_ (by positivity)
  have ht' := ht.trans h
  have h2 : t ^ 2 < t' ^ 2 := pow_lt_pow_left₀ h ht.le two_ne_zero
  rw [div_lt_div_iff₀ (by positivity) (by positivity)]
  have : 0 < r ^ 2 := by positivity
  nlinarith

theorem tnfwK_lt_ringG {R t : ℝ} (hR : 0 < R) (ht : 0 < t) : tnfwK t R < ringG R := by
  refine los_lt (fun _ hz => hasDerivAt_losT hR ht hz) (fun _ hz => hasDerivAt_losG hR hz)
    (fun z _ => ?_) ((losT_zero hR t).trans (losG_zero hR).symm) (tendsto_losT hR ht) (tendsto_losG hR)
  have hr := losR_pos hR z
  generalize losR R z = r at *
  refine mul_lt_of_lt_one_right (by positivity) ?_
  rw [div_lt_one (by positivity)]
  have : 0 < r ^ 2 := by positivity
  linarith

/-- The normalised projected mass. -/
noncomputable def tnfwMn (t g : ℝ) : ℝ := t ^ 2 / (t ^ 2 + 1) ^ 2 * tnfwMb t g

theorem hasDerivAt_tnfwMn {t g : ℝ} (ht : 0 < t) (hg : 0 < g) (h1 : g ≠ 1) :
    HasDerivAt (tnfwMn t) (g * tnfwK t g) g := by
  refine ((hasDerivAt_tnfwMb ht hg h1).const_mul (t ^ 2 / (t ^ 2 + 1) ^ 2)).congr_deriv ?_
  field_simp

theorem tendsto_tnfwMn_zero {t : ℝ} (ht : 0 < t) : Tendsto (tnfwMn t) (𝓝[>] 0) (𝓝 0) := by
  have := (tendsto_tnfwBracket_zero ht).const_mul (t ^ 2 / (t ^ 2 + 1) ^ 2)
  rwa [mul_zero] at this

/-- Two functions of the radius, continuous, starting from the same value, one growing faster. -/
theorem mono_sub_of_deriv {F G f g : ℝ → ℝ} (hF : ContinuousOn F (Set.Ioi 0))
    (hG : ContinuousOn G (Set.Ioi 0)) (dF : ∀ x, 0 < x → x ≠ 1 → HasDerivAt F (f x) x)
    (dG : ∀ x, 0 < x → x ≠ 1 → HasDerivAt G (g x) x) (h : ∀ x, 0 < x → x ≠ 1 → f x < g x) :
    StrictMonoOn (fun x => G x - F x) (Set.Ioi 0) := by
  have hd : ∀ x, 0 < x → x ≠ 1 → 0 < deriv (fun x => G x - F x) x := fun x hx h1 => by
    have := ((dG x hx h1).fun_sub (dF x hx h1)).deriv
    rw [this]
    exact sub_pos.2 (h x hx h1)
  have a : StrictMonoOn (fun x => G x - F x) (Set.Ioc 0 1) :=
    strictMonoOn_of_deriv_pos (convex_Ioc 0 1)
      ((hG.sub hF).mono Set.Ioc_subset_Ioi_self) fun x hx => by
        rw [interior_Ioc] at hx
        exact hd x hx.1 hx.2.ne
  have b : StrictMonoOn (fun x => G x - F x) (Set.Ici 1) :=
    strictMonoOn_of_deriv_pos (convex_Ici 1)
      ((hG.sub hF).mono fun x hx => Set.mem_Ioi.2 (zero_lt_one.trans_le hx)) fun x hx => by
        rw [interior_Ici] at hx
        exact hd x (zero_lt_one.trans hx) (ne_of_gt hx)
  have := a.union b (c := 1) ⟨⟨one_pos, le_rfl⟩, fun x hx => hx.2⟩ ⟨Set.mem_Ici.2 le_rfl, fun x hx => hx⟩
  rwa [Set.Ioc_union_Ici_eq_Ioi one_pos] at this

theorem pos_of_mono_of_tendsto {D : ℝ → ℝ} (hm : StrictMonoOn D (Set.Ioi 0))
    (h0 : Tendsto D (𝓝[>] 0) (𝓝 0)) {x : ℝ} (hx : 0 < x) : 0 < D x := by
  have hle : 0 ≤ D (x / 2) := by
    refine le_of_tendsto h0 ?_
    filter_upwards [Ioo_mem_nhdsGT (half_pos hx)] with y hy
    exact hm.monotoneOn hy.1 (half_pos hx) hy.2.le
  exact hle.trans_lt (hm (Set.mem_Ioi.2 (half_pos hx)) (Set.mem_Ioi.2 hx) (by linarith))

theorem tnfwMn_sub_mono {t t' : ℝ} (ht : 0 < t) (h : t < t') :
    StrictMonoOn (fun x => tnfwMn t' x - tnfwMn t x) (Set.Ioi 0) :=
  mono_sub_of_deriv (f := fun g => g * tnfwK t g) (g := fun g => g * tnfwK t' g)
    (continuousOn_const.mul (continuousOn_tnfwMb ht))
    (continuousOn_const.mul (continuousOn_tnfwMb (ht.trans h)))
    (fun _ hx h1 => hasDerivAt_tnfwMn ht hx h1) (fun _ hx h1 => hasDerivAt_tnfwMn (ht.trans h) hx h1)
    fun _ hx _ => mul_lt_mul_of_pos_left (tnfwK_mono_tau hx ht h) hx

theorem tnfwMn_mono_tau {t t' g : ℝ} (ht : 0 < t) (h : t < t') (hg : 0 < g) : tnfwMn t g < tnfwMn t' g := by
  have := pos_of_mono_of_tendsto (tnfwMn_sub_mono ht h)
    (by simpa using (tendsto_tnfwMn_zero (ht.trans h)).sub (tendsto_tnfwMn_zero ht)) hg
  linarith

/-- The total mass over `M0`. -/
noncomputable def tnfwTot (t : ℝ) : ℝ :=
  t ^ 2 / (t ^ 2 + 1) ^ 2 * ((t ^ 2 - 1) * log t + π * t - (t ^ 2 + 1))

theorem tnfwTot_pos {t : ℝ} (ht : 0 < t) : 0 < tnfwTot t := by
  have := tnfw_norm_pos ht
  unfold tnfwTot
  positivity

theorem tendsto_tnfwMn {t : ℝ} (ht : 0 < t) : Tendsto (tnfwMn t) atTop (𝓝 (tnfwTot t)) :=
  (tendsto_tnfwBracket ht).const_mul _

theorem tnfwTot_mono {t t' : ℝ} (ht : 0 < t) (h : t < t') : tnfwTot t < tnfwTot t' := by
  have h1 := tnfwMn_mono_tau ht h one_pos
  have h2 : tnfwMn t' 1 - tnfwMn t 1 ≤ tnfwTot t' - tnfwTot t := by
    refine ge_of_tendsto ((tendsto_tnfwMn (ht.trans h)).sub (tendsto_tnfwMn ht)) ?_
    filter_upwards [eventually_ge_atTop 1] with x hx
    exact (tnfwMn_sub_mono ht h).monotoneOn (Set.mem_Ioi.2 one_pos) (Set.mem_Ioi.2 (by linarith)) hx
  linarith

theorem tnfwM0Tot_eq (m t : ℝ) : tnfwM0Tot m t = m / tnfwTot t := by
  unfold tnfwM0Tot tnfwTot
  rw [div_mul_eq_mul_div, div_div_eq_mul_div]

theorem tendsto_tnfwMassEnclosed {Rs t M0 : ℝ} (hR : 0 < Rs) (ht : 0 < t) :
    Tendsto (fun r => tnfwMassEnclosed r Rs t M0) atTop (𝓝 (M0 * tnfwTot t)) := by
  have hb := ((tendsto_tnfwMn ht).comp (tendsto_id.atTop_div_const hR)).const_mul M0
  refine hb.congr' ?_
  filter_upwards [eventually_gt_atTop (2 * Rs)] with r hr
  have hg : 2 < r / Rs := by rw [lt_div_iff₀ hR]; exact hr
  have hw : 1e-2 < |r / Rs - 1| := by rw [abs_of_pos (by linarith)]; norm_num; linarith
  rw [tnfwMassEnclosed_eq (Or.inl hw)]
  simp only [Function.comp_apply, id, tnfwMn, mul_assoc]

end Caustics
