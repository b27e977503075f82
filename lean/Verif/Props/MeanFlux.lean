import Verif.Props.MeanMag
import Mathlib.MeasureTheory.Group.LIntegral

/-!
C149, continued: the flux of a source of any profile, averaged over its position.
-/

namespace Caustics

open FieldLens Filter Topology MeasureTheory MassiveLens Real

/-- Turning the order of the averages: sources everywhere and rays everywhere. -/
theorem mean_swap {T : ℝ × ℝ → ℝ × ℝ} (hT : Measurable T) {S : ℝ × ℝ → ENNReal} (hS : Measurable S) (c : ℝ × ℝ) (R : ℝ) :
    ∫⁻ o in {o : ℝ × ℝ | len2 (o - c) ≤ R}, ∫⁻ p, S (T p - o) = ∫⁻ s, S s * volume {p | len2 (T p - (c + s)) ≤ R} := by
  have hl : Measurable len2 := by
    unfold len2
    fun_prop
  have hD : MeasurableSet {o : ℝ × ℝ | len2 (o - c) ≤ R} := measurableSet_le (hl.comp (measurable_id.sub_const c)) measurable_const
  have m1 : Measurable (Function.uncurry fun (o p : ℝ × ℝ) => S (T p - o)) :=
    hS.comp ((hT.comp measurable_snd).sub measurable_fst)
  rw [lintegral_lintegral_swap m1.aemeasurable]
  have e1 : ∀ p, ∫⁻ o in {o : ℝ × ℝ | len2 (o - c) ≤ R}, S (T p - o) =
      ∫⁻ s, S s * ({p : ℝ × ℝ | len2 (p - c) ≤ R}.indicator 1 (T p - s)) := by
    intro p
    rw [← lintegral_indicator hD, ← lintegral_sub_left_eq_self _ (T p)]
    refine lintegral_congr fun s => ?_
    by_cases hs : T p - s ∈ {o : ℝ × ℝ | len2 (o - c) ≤ R}
    · rw [Set.indicator_of_mem hs, Set.indicator_of_mem hs, sub_sub_cancel, Pi.one_apply, mul_one]
    · rw [Set.indicator_of_notMem hs, Set.indicator_of_notMem hs, mul_zero]
  simp only [e1]
  have m2 : Measurable (Function.uncurry fun (p s : ℝ × ℝ) => S s * ({p : ℝ × ℝ | len2 (p - c) ≤ R}.indicator 1 (T p - s) : ENNReal)) :=
    (hS.comp measurable_snd).mul ((measurable_one.indicator hD).comp ((hT.comp measurable_fst).sub measurable_snd))
  rw [lintegral_lintegral_swap m2.aemeasurable]
  refine lintegral_congr fun s => ?_
  have hm : MeasurableSet {p | len2 (T p - (c + s)) ≤ R} := measurableSet_le (hl.comp (hT.sub_const _)) measurable_const
  have hi : Measurable fun p => ({p : ℝ × ℝ | len2 (p - c) ≤ R}.indicator 1 (T p - s) : ENNReal) :=
    (measurable_one.indicator hD).comp (hT.sub_const s)
  rw [lintegral_const_mul _ hi, ← lintegral_indicator_one hm]
  congr 1
  refine lintegral_congr fun p => ?_
  simp only [Set.indicator, Set.mem_ofPred_eq, sub_sub, add_comm s c, Pi.one_apply]

theorem measurable_artanh : Measurable artanh := by
  unfold artanh
  fun_prop

theorem MassiveLens.measurable (m : MassiveLens) : Measurable fun p : ℝ × ℝ => m.lens.deflection p.1 p.2 := by
  have := measurable_artanh
  cases m with
  | sis x0 y0 R =>
    simp only [lens, sisLens, sisDeflection, translateRotate]
    fun_prop
  | point x0 y0 R =>
    simp only [lens, pointLens, pointDeflection, translateRotate]
    fun_prop
  | sie x0 y0 q phi R s =>
    simp only [lens, sieLens, sieDeflection, translateRotate, derotate]
    fun_prop
  | sheet x0 y0 k =>
    simp only [lens, sheetLens, sheetDeflection, translateRotate]
    fun_prop
  | shear x0 y0 g1 g2 =>
    simp only [lens, shearLens, shearDeflection, translateRotate]
    fun_prop
  | jaffe L =>
    simp only [lens, jaffeLens, PJaffe.deflection, translateRotate]
    fun_prop
theorem plane_measurable (l : List MassiveLens) : Measurable fun p : ℝ × ℝ =>
    (p.1 - ((singlePlane (l.map lens)).deflection p.1 p.2).1, p.2 - ((singlePlane (l.map lens)).deflection p.1 p.2).2) := by
  have h : Measurable fun p : ℝ × ℝ => singlePlaneDeflection (l.map lens) p.1 p.2 := by
    simp only [singlePlaneDeflection]
    have : ∀ f : ℝ × ℝ → ℝ × ℝ, Measurable f → Measurable fun p : ℝ × ℝ => (l.map lens).foldl
        (fun acc n => (acc.1 + (n.deflection p.1 p.2).1, acc.2 + (n.deflection p.1 p.2).2)) (f p) := by
      induction l with
      | nil => exact fun f hf => hf
      | cons m l ih =>
        intro f hf
        have hm := m.measurable
        refine ih (fun p => ((f p).1 + (m.lens.deflection p.1 p.2).1, (f p).2 + (m.lens.deflection p.1 p.2).2)) ?_
        exact (hf.fst.add hm.fst).prodMk (hf.snd.add hm.snd)
    exact this (fun _ => (0, 0)) measurable_const
  exact (measurable_fst.sub h.fst).prodMk (measurable_snd.sub h.snd)

/-- Bounds on the flux received from all the sources centred in a disc. -/
theorem C149_flux_bounds {trace : ℝ → ℝ → Option (ℝ × ℝ)} {K : Set (ℝ × ℝ)} {B : ℝ} (h : Displaces trace K B)
    {T : ℝ × ℝ → ℝ × ℝ} (hT : Measurable T) (htr : ∀ᵐ p : ℝ × ℝ, trace p.1 p.2 = some (T p)) {S : ℝ × ℝ → ENNReal}
    (hS : Measurable S) (c : ℝ × ℝ) {R : ℝ} (hR : B ≤ R) :
    ∫⁻ o in {o : ℝ × ℝ | len2 (o - c) ≤ R}, ∫⁻ p, observed trace (fun b => S (b - o)) p ≤
      (∫⁻ b, S b) * (ENNReal.ofReal (π * (R + B) ^ 2) + volume K) ∧
    (∫⁻ b, S b) * ENNReal.ofReal (π * (R - B) ^ 2) ≤
      (∫⁻ o in {o : ℝ × ℝ | len2 (o - c) ≤ R}, ∫⁻ p, observed trace (fun b => S (b - o)) p) + (∫⁻ b, S b) * volume K := by
  have e1 : ∀ o, ∫⁻ p, observed trace (fun b => S (b - o)) p = ∫⁻ p, S (T p - o) := fun o => by
    refine lintegral_congr_ae ?_
    filter_upwards [htr] with p hp
    simp only [observed, hp]
  have e2 : ∀ o R, volume {p | len2 (T p - o) ≤ R} = volume (seenDisc trace o R) := fun o R => by
    refine measure_congr ?_
    filter_upwards [htr] with p hp
    refine propext ⟨fun hs => ⟨_, hp, hs⟩, ?_⟩
    rintro ⟨b, hb, hs⟩
    obtain rfl : T p = b := Option.some.inj (hp.symm.trans hb)
    exact hs
  simp only [e1, mean_swap hT hS, e2]
  constructor
  · rw [← lintegral_mul_const _ hS]
    exact lintegral_mono fun s => mul_le_mul_right (C149_bounds h (c + s) hR).1 _
  · rw [← lintegral_mul_const _ hS, ← lintegral_mul_const _ hS, ← lintegral_add_right _ (hS.mul_const _)]
    refine lintegral_mono fun s => ?_
    rw [← mul_add]
    exact mul_le_mul_right (C149_bounds h (c + s) hR).2 _

/-- **The flux of a source, averaged over the places where it may be.** Of a source of any profile `S`, centred at `o`, the
observer receives `∫ S (trace p - o) dp`.  The mean of this over the centres `o` in a disc tends to the flux of the source
itself as the disc grows. -/
theorem C149_mean_flux {trace : ℝ → ℝ → Option (ℝ × ℝ)} {K : Set (ℝ × ℝ)} {B : ℝ} (h : Displaces trace K B)
    {T : ℝ × ℝ → ℝ × ℝ} (hT : Measurable T) (htr : ∀ᵐ p : ℝ × ℝ, trace p.1 p.2 = some (T p)) {S : ℝ × ℝ → ENNReal}
    (hS : Measurable S) (hfin : ∫⁻ b, S b ≠ ⊤) (c : ℝ × ℝ) :
    Tendsto (fun R => (∫⁻ o in {o : ℝ × ℝ | len2 (o - c) ≤ R}, ∫⁻ p, observed trace (fun b => S (b - o)) p).toReal / (π * R ^ 2))
      atTop (𝓝 (∫⁻ b, S b).toReal) := by
  have hB := h.nonneg
  set Φ := ∫⁻ b, S b with hΦ
  set k := (volume K).toReal with hk
  have lim : ∀ s t : ℝ, Tendsto (fun R : ℝ => Φ.toReal * (π * (R + s) ^ 2 + t) / (π * R ^ 2)) atTop (𝓝 Φ.toReal) := by
    intro s t
    have := (mean_limit s t).const_mul Φ.toReal
    rw [mul_one] at this
    exact this.congr fun R => by rw [mul_div_assoc]
  refine tendsto_of_tendsto_of_tendsto_of_le_of_le' (lim (-B) (-k)) (lim B k) ?_ ?_
  · filter_upwards [eventually_ge_atTop B, eventually_gt_atTop 0] with R hR hR0
    obtain ⟨up, lo⟩ := C149_flux_bounds h hT htr hS c hR
    rw [← hΦ] at up lo
    have hG := ne_top_of_le_ne_top
      (ENNReal.mul_ne_top hfin (ENNReal.add_ne_top.2 ⟨ENNReal.ofReal_ne_top, h.finite⟩)) up
    have h3 := ENNReal.toReal_mono (ENNReal.add_ne_top.2 ⟨hG, ENNReal.mul_ne_top hfin h.finite⟩) lo
    rw [ENNReal.toReal_mul, ENNReal.toReal_ofReal (by positivity), ENNReal.toReal_add hG (ENNReal.mul_ne_top hfin h.finite),
      ENNReal.toReal_mul] at h3
    refine div_le_div_of_nonneg_right ?_ (by positivity)
    rw [show R + -B = R - B by ring, mul_add, mul_neg]
    linarith
  · filter_upwards [eventually_ge_atTop B, eventually_gt_atTop 0] with R hR hR0
    obtain ⟨up, -⟩ := C149_flux_bounds h hT htr hS c hR
    rw [← hΦ] at up
    have h3 := ENNReal.toReal_mono
      (ENNReal.mul_ne_top hfin (ENNReal.add_ne_top.2 ⟨ENNReal.ofReal_ne_top, h.finite⟩)) up
    rw [ENNReal.toReal_mul, ENNReal.toReal_add ENNReal.ofReal_ne_top h.finite, ENNReal.toReal_ofReal (by positivity)] at h3
    exact div_le_div_of_nonneg_right h3 (by positivity)

theorem plane_trace_ae (z : ℝ) (l : List MassiveLens) (hok : ∀ m ∈ l, m.Ok) : ∀ᵐ p : ℝ × ℝ,
    raytraceOpt (singlePlaneO z ((l.map (member z)).map (PlaneMember.lens z))).reduced p.1 p.2 =
      some (p.1 - ((singlePlane (l.map lens)).deflection p.1 p.2).1, p.2 - ((singlePlane (l.map lens)).deflection p.1 p.2).2) := by
  have : NullSingletonClass (volume : Measure (ℝ × ℝ)) := Measure.prod.instNullSingletonClass_fst
  have hfin : ∀ᵐ p : ℝ × ℝ, p ∉ ((planePoles (l.map (member z)) ∪ planeKinks (l.map (member z)) : Finset (ℝ × ℝ)) : Set (ℝ × ℝ)) :=
    measure_eq_zero_iff_ae_notMem.1 ((Finset.finite_toSet _).measure_zero volume)
  filter_upwards [hfin] with p hp
  rw [Finset.mem_coe, Finset.mem_union, not_or] at hp
  exact massive_value z l hok hp.1 hp.2

/-- **Any source behind masses in one plane.** -/
theorem C149_plane_flux (z : ℝ) (l : List MassiveLens) (hok : ∀ m ∈ l, m.Ok) (h0 : ∀ m ∈ l, m.atInfinity = 0)
    {S : ℝ × ℝ → ENNReal} (hS : Measurable S) (hfin : ∫⁻ b, S b ≠ ⊤) (c : ℝ × ℝ) :
    Tendsto (fun R => (∫⁻ o in {o : ℝ × ℝ | len2 (o - c) ≤ R}, ∫⁻ p, observed
      (raytraceOpt (singlePlaneO z ((l.map (member z)).map (PlaneMember.lens z))).reduced) (fun b => S (b - o)) p).toReal / (π * R ^ 2))
      atTop (𝓝 (∫⁻ b, S b).toReal) := by
  exact C149_mean_flux (plane_displaces z l hok h0) (plane_measurable l) (plane_trace_ae z l hok) hS hfin c

/-- A disc of light behind an isothermal sphere, a star and an ellipsoid. -/
example (z : ℝ) := C149_plane_flux z [MassiveLens.sis 0 0 1, .point 1 0 1, .sie 0 0 (3 / 5) 1 1 0] (by
    intro m hm
    simp only [List.mem_cons, List.not_mem_nil, or_false] at hm
    rcases hm with rfl | rfl | rfl
    · exact one_pos
    · exact one_pos
    · exact ⟨by norm_num, by norm_num, one_pos, Or.inl rfl⟩) (by
    intro m hm
    simp only [List.mem_cons, List.not_mem_nil, or_false] at hm
    rcases hm with rfl | rfl | rfl <;> rfl)
    (S := (Metric.closedBall (0 : ℝ × ℝ) 1).indicator 1) (measurable_one.indicator measurableSet_closedBall) (by
      rw [lintegral_indicator_one measurableSet_closedBall]
      exact measure_closedBall_lt_top.ne) 0

/-- **Noticeable magnification is rare.** Behind masses in one plane the flux of no source is lowered (C148), and the
fraction of the positions in a disc at which it is raised by `ε` or more tends to zero as the disc grows. -/
theorem C149_rarely (z : ℝ) (l : List MassiveLens) (hok : ∀ m ∈ l, m.Ok) (h0 : ∀ m ∈ l, m.atInfinity = 0)
    {S : ℝ × ℝ → ENNReal} (hS : Measurable S) (hfin : ∫⁻ b, S b ≠ ⊤) (c : ℝ × ℝ) {ε : ℝ} (hε : 0 < ε) :
    Tendsto (fun R => (volume {o : ℝ × ℝ | len2 (o - c) ≤ R ∧ (∫⁻ b, S b) + ENNReal.ofReal ε ≤ ∫⁻ p, observed
      (raytraceOpt (singlePlaneO z ((l.map (member z)).map (PlaneMember.lens z))).reduced) (fun b => S (b - o)) p}).toReal / (π * R ^ 2))
      atTop (𝓝 0) := by
  have hmean := C149_plane_flux z l hok h0 hS hfin c
  have hdim : ∀ o : ℝ × ℝ, ∫⁻ b, S b ≤ ∫⁻ p, observed
      (raytraceOpt (singlePlaneO z ((l.map (member z)).map (PlaneMember.lens z))).reduced) (fun b => S (b - o)) p := by
    intro o
    have h := C148_not_dimmed z l hok (by
      rw [List.sum_eq_zero fun x hx => by
        obtain ⟨m, hm, rfl⟩ := List.mem_map.1 hx
        exact h0 m hm]
      exact one_pos) (S := fun b => S (b - o)) (hS.comp (measurable_id.sub_const o))
    rwa [lintegral_sub_right_eq_self S o] at h
  have hlens := plane_trace_ae z l hok
  have hup : ∀ R, (l.map fun m => |m.reaching.B|).sum ≤ R → ∫⁻ o in {o : ℝ × ℝ | len2 (o - c) ≤ R}, ∫⁻ p, observed
      (raytraceOpt (singlePlaneO z ((l.map (member z)).map (PlaneMember.lens z))).reduced) (fun b => S (b - o)) p ≠ ⊤ := by
    intro R hR
    have h := plane_displaces z l hok h0
    exact ne_top_of_le_ne_top (ENNReal.mul_ne_top hfin (ENNReal.add_ne_top.2 ⟨ENNReal.ofReal_ne_top, h.finite⟩))
      (C149_flux_bounds h (plane_measurable l) hlens hS c hR).1
  have hmeas : Measurable fun o : ℝ × ℝ => ∫⁻ p, observed
      (raytraceOpt (singlePlaneO z ((l.map (member z)).map (PlaneMember.lens z))).reduced) (fun b => S (b - o)) p := by
    have e1 : ∀ o : ℝ × ℝ, ∫⁻ p, observed
        (raytraceOpt (singlePlaneO z ((l.map (member z)).map (PlaneMember.lens z))).reduced) (fun b => S (b - o)) p =
        ∫⁻ p : ℝ × ℝ, S ((p.1 - ((singlePlane (l.map lens)).deflection p.1 p.2).1,
          p.2 - ((singlePlane (l.map lens)).deflection p.1 p.2).2) - o) := fun o => by
      refine lintegral_congr_ae ?_
      filter_upwards [hlens] with p hp
      simp only [observed, hp]
    simp only [e1]
    have m1 : Measurable fun q : (ℝ × ℝ) × (ℝ × ℝ) => S ((q.2.1 - ((singlePlane (l.map lens)).deflection q.2.1 q.2.2).1,
          q.2.2 - ((singlePlane (l.map lens)).deflection q.2.1 q.2.2).2) - q.1) :=
      hS.comp (((plane_measurable l).comp measurable_snd).sub measurable_fst)
    exact m1.lintegral_prod_right'
  generalize hF : (fun o : ℝ × ℝ => ∫⁻ p, observed
    (raytraceOpt (singlePlaneO z ((l.map (member z)).map (PlaneMember.lens z))).reduced) (fun b => S (b - o)) p) = F at hmeas
  have hF' : ∀ o, ∫⁻ p, observed
    (raytraceOpt (singlePlaneO z ((l.map (member z)).map (PlaneMember.lens z))).reduced) (fun b => S (b - o)) p = F o :=
    fun o => congrFun hF o
  simp only [hF'] at hmean hdim hup ⊢
  set Φ := ∫⁻ b, S b with hΦ
  have hl : Measurable len2 := by
    unfold len2
    fun_prop
  have hD : ∀ R, MeasurableSet {o : ℝ × ℝ | len2 (o - c) ≤ R} := fun R =>
    measurableSet_le (hl.comp (measurable_id.sub_const c)) measurable_const
  have hA : MeasurableSet {o : ℝ × ℝ | Φ + ENNReal.ofReal ε ≤ F o} := measurableSet_le measurable_const hmeas
  have key : ∀ R, Φ * volume {o : ℝ × ℝ | len2 (o - c) ≤ R} + ENNReal.ofReal ε * volume {o : ℝ × ℝ | len2 (o - c) ≤ R ∧
      Φ + ENNReal.ofReal ε ≤ F o} ≤ ∫⁻ o in {o : ℝ × ℝ | len2 (o - c) ≤ R}, F o := by
    intro R
    have e : {o : ℝ × ℝ | len2 (o - c) ≤ R ∧ Φ + ENNReal.ofReal ε ≤ F o} =
        {o : ℝ × ℝ | Φ + ENNReal.ofReal ε ≤ F o} ∩ {o : ℝ × ℝ | len2 (o - c) ≤ R} := by
      ext o
      exact and_comm
    rw [e, ← Measure.restrict_apply hA, ← lintegral_indicator_const hA, ← setLIntegral_const,
      ← lintegral_add_left measurable_const]
    refine lintegral_mono fun o => ?_
    by_cases ho : o ∈ {o : ℝ × ℝ | Φ + ENNReal.ofReal ε ≤ F o}
    · rw [Set.indicator_of_mem ho]
      exact ho
    · rw [Set.indicator_of_notMem ho, add_zero]
      exact hdim o
  have hlim : Tendsto (fun R => ((∫⁻ o in {o : ℝ × ℝ | len2 (o - c) ≤ R}, F o).toReal / (π * R ^ 2) - Φ.toReal) / ε) atTop (𝓝 0) := by
    have := (hmean.sub_const Φ.toReal).div_const ε
    rwa [sub_self, zero_div] at this
  refine tendsto_of_tendsto_of_tendsto_of_le_of_le' tendsto_const_nhds hlim ?_ ?_
  · filter_upwards [eventually_gt_atTop 0] with R hR
    positivity
  · filter_upwards [eventually_gt_atTop 0, eventually_ge_atTop _] with R hR hRB
    have htop := hup R hRB
    have h1 := key R
    rw [volume_disc c R hR.le] at h1
    have ht := ne_top_of_le_ne_top htop h1
    have h2 := ENNReal.toReal_mono htop h1
    obtain ⟨t1, t2⟩ := ENNReal.add_ne_top.1 ht
    rw [ENNReal.toReal_add t1 t2, ENNReal.toReal_mul, ENNReal.toReal_mul, ENNReal.toReal_ofReal hε.le,
      ENNReal.toReal_ofReal (by positivity)] at h2
    have hpos : 0 < π * R ^ 2 := by positivity
    rw [le_div_iff₀ hε, div_mul_eq_mul_div, le_sub_iff_add_le, div_add' _ _ _ hpos.ne']
    refine div_le_div_of_nonneg_right ?_ hpos.le
    linarith

example (z : ℝ) := C149_rarely z [MassiveLens.sis 0 0 1, .point 1 0 1] (by
    intro m hm
    simp only [List.mem_cons, List.not_mem_nil, or_false] at hm
    rcases hm with rfl | rfl <;> exact one_pos) (by
    intro m hm
    simp only [List.mem_cons, List.not_mem_nil, or_false] at hm
    rcases hm with rfl | rfl <;> rfl)
    (S := (Metric.closedBall (0 : ℝ × ℝ) 1).indicator 1) (measurable_one.indicator measurableSet_closedBall) (by
      rw [lintegral_indicator_one measurableSet_closedBall]
      exact measure_closedBall_lt_top.ne) 0 (ε := 1 / 100) (by norm_num)

end Caustics
