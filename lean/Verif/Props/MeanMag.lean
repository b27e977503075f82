import Verif.Props.NeverDims
import Verif.Props.FieldOfViewHalo
import Mathlib.MeasureTheory.Measure.Lebesgue.VolumeOfBalls

/-!
C149: averaged over a large part of the sky a lens neither brightens nor dims.
-/

namespace Caustics

open FieldLens Filter Topology MeasureTheory MassiveLens Real

/-- The positions on the sky at which a disc of radius `R` about `o` in the source plane is seen. -/
def seenDisc (trace : ℝ → ℝ → Option (ℝ × ℝ)) (o : ℝ × ℝ) (R : ℝ) : Set (ℝ × ℝ) :=
  {p | ∃ b, trace p.1 p.2 = some b ∧ len2 (b - o) ≤ R}

theorem volume_disc (o : ℝ × ℝ) (R : ℝ) (hR : 0 ≤ R) : volume {p : ℝ × ℝ | len2 (p - o) ≤ R} = ENNReal.ofReal (π * R ^ 2) := by
  have h := Complex.volume_preserving_equiv_real_prod.measure_preimage_equiv {p : ℝ × ℝ | len2 (p - o) ≤ R}
  rw [← h]
  have e : (Complex.measurableEquivRealProd ⁻¹' {p : ℝ × ℝ | len2 (p - o) ≤ R}) = Metric.closedBall (⟨o.1, o.2⟩ : ℂ) R := by
    ext w
    rw [Set.mem_preimage, Set.mem_ofPred_eq, Metric.mem_closedBall, Complex.dist_eq, Complex.norm_def, Complex.normSq_apply,
      len2]
    simp [Complex.measurableEquivRealProd_apply, sq]
  rw [e, Complex.volume_closedBall, ENNReal.ofReal_mul pi_pos.le, ENNReal.ofReal_pow hR, mul_comm]
  congr 1
  rw [← NNReal.coe_real_pi, ENNReal.ofReal_coe_nnreal]

/-- A lens that, outside some places `K`, nowhere displaces by more than `B`. -/
structure Displaces (trace : ℝ → ℝ → Option (ℝ × ℝ)) (K : Set (ℝ × ℝ)) (B : ℝ) : Prop where
  nonneg : 0 ≤ B
  finite : volume K ≠ ⊤
  le : ∀ᵐ p : ℝ × ℝ, p ∈ K ∨ ∃ b, trace p.1 p.2 = some b ∧ len2 (p - b) ≤ B

/-- The area of the image of a disc is that of the disc up to its rim. -/
theorem C149_bounds {trace : ℝ → ℝ → Option (ℝ × ℝ)} {K : Set (ℝ × ℝ)} {B : ℝ} (h : Displaces trace K B) (o : ℝ × ℝ) {R : ℝ}
    (hR : B ≤ R) : volume (seenDisc trace o R) ≤ ENNReal.ofReal (π * (R + B) ^ 2) + volume K ∧
      ENNReal.ofReal (π * (R - B) ^ 2) ≤ volume (seenDisc trace o R) + volume K := by
  have hB := h.nonneg
  rw [← volume_disc o _ (by linarith), ← volume_disc o _ (by linarith)]
  constructor
  · refine le_trans (measure_mono_ae ?_) (measure_union_le _ _)
    filter_upwards [h.le] with p hp hs
    obtain ⟨b, hb, hbR⟩ := hs
    rcases hp with hp | ⟨b', hb', hpb⟩
    · exact Or.inr hp
    · obtain rfl : b' = b := Option.some.inj (hb'.symm.trans hb)
      left
      have := len2_add (p - b') (b' - o)
      rw [sub_add_sub_cancel] at this
      exact (this.trans (add_le_add hpb hbR)).trans (by linarith)
  · refine le_trans (measure_mono_ae ?_) (measure_union_le _ _)
    filter_upwards [h.le] with p hp hs
    rcases hp with hp | ⟨b', hb', hpb⟩
    · exact Or.inr hp
    · refine Or.inl ⟨b', hb', ?_⟩
      have := len2_add (b' - p) (p - o)
      rw [sub_add_sub_cancel, len2_sub_comm b' p] at this
      have hs : len2 (p - o) ≤ R - B := hs
      linarith

theorem mean_limit (s t : ℝ) : Tendsto (fun R : ℝ => (π * (R + s) ^ 2 + t) / (π * R ^ 2)) atTop (𝓝 1) := by
  have h1 : Tendsto (fun R : ℝ => R⁻¹) atTop (𝓝 0) := tendsto_inv_atTop_zero
  have h2 : Tendsto (fun R : ℝ => (1 + s * R⁻¹) ^ 2 + t / π * (R⁻¹) ^ 2) atTop (𝓝 ((1 + s * 0) ^ 2 + t / π * 0 ^ 2)) :=
    ((h1.const_mul s).const_add 1 |>.pow 2).add ((h1.pow 2).const_mul _)
  rw [show ((1 : ℝ) + s * 0) ^ 2 + t / π * 0 ^ 2 = 1 by ring] at h2
  refine h2.congr' ?_
  filter_upwards [eventually_gt_atTop 0] with R hR
  have := pi_pos
  field_simp

/-- **The mean magnification is one.** The area under which a disc of sources is seen, divided by its own area, tends to one
as the disc grows. -/
theorem C149_mean {trace : ℝ → ℝ → Option (ℝ × ℝ)} {K : Set (ℝ × ℝ)} {B : ℝ} (h : Displaces trace K B) (o : ℝ × ℝ) :
    Tendsto (fun R => (volume (seenDisc trace o R)).toReal / (π * R ^ 2)) atTop (𝓝 1) := by
  have hB := h.nonneg
  set k := (volume K).toReal with hk
  have lim := mean_limit
  refine tendsto_of_tendsto_of_tendsto_of_le_of_le' (lim (-B) (-k)) (lim B k) ?_ ?_
  · filter_upwards [eventually_ge_atTop B, eventually_gt_atTop 0] with R hR hR0
    obtain ⟨h1, h2⟩ := C149_bounds h o hR
    have hfin : volume (seenDisc trace o R) ≠ ⊤ := ne_top_of_le_ne_top (ENNReal.add_ne_top.2 ⟨ENNReal.ofReal_ne_top, h.finite⟩) h1
    have h3 := ENNReal.toReal_mono (ENNReal.add_ne_top.2 ⟨hfin, h.finite⟩) h2
    rw [ENNReal.toReal_ofReal (by positivity), ENNReal.toReal_add hfin h.finite] at h3
    refine div_le_div_of_nonneg_right ?_ (by positivity)
    rw [← sub_eq_add_neg]
    linarith
  · filter_upwards [eventually_ge_atTop B, eventually_gt_atTop 0] with R hR hR0
    obtain ⟨h1, h2⟩ := C149_bounds h o hR
    have h3 := ENNReal.toReal_mono (ENNReal.add_ne_top.2 ⟨ENNReal.ofReal_ne_top, h.finite⟩) h1
    rw [ENNReal.toReal_add ENNReal.ofReal_ne_top h.finite, ENNReal.toReal_ofReal (by positivity)] at h3
    exact div_le_div_of_nonneg_right h3 (by positivity)

theorem volume_circles {α : Type*} (l : List α) (c : α → ℝ × ℝ) (ρ : α → ℝ) :
    volume {p : ℝ × ℝ | ∃ m ∈ l, len2 (p - c m) < ρ m} ≠ ⊤ := by
  induction l with
  | nil => simp
  | cons m l ih =>
    have e : {p : ℝ × ℝ | ∃ n ∈ m :: l, len2 (p - c n) < ρ n} ⊆
        {p : ℝ × ℝ | len2 (p - c m) ≤ |ρ m|} ∪ {p | ∃ n ∈ l, len2 (p - c n) < ρ n} := by
      rintro p ⟨n, hn, hp⟩
      rcases List.mem_cons.1 hn with rfl | hn
      · exact Or.inl (hp.le.trans (le_abs_self _))
      · exact Or.inr ⟨n, hn, hp⟩
    refine ne_top_of_le_ne_top ?_ ((measure_mono e).trans (measure_union_le _ _))
    rw [volume_disc _ _ (abs_nonneg _)]
    exact ENNReal.add_ne_top.2 ⟨ENNReal.ofReal_ne_top, ih⟩

/-- A `SinglePlane` of any number of masses, without sheets and shears. -/
theorem plane_displaces (z : ℝ) (l : List MassiveLens) (hok : ∀ m ∈ l, m.Ok) (h0 : ∀ m ∈ l, m.atInfinity = 0) :
    Displaces (raytraceOpt (singlePlaneO z ((l.map (member z)).map (PlaneMember.lens z))).reduced)
      {p | ∃ m ∈ l, len2 (p - m.reaching.c) < m.reaching.rho} (l.map fun m => |m.reaching.B|).sum where
  nonneg := List.sum_nonneg fun x hx => by
    obtain ⟨m, -, rfl⟩ := List.mem_map.1 hx
    exact abs_nonneg _
  finite := volume_circles l _ _
  le := by
    have : NullSingletonClass (volume : Measure (ℝ × ℝ)) := Measure.prod.instNullSingletonClass_fst
    have hfin : ∀ᵐ p : ℝ × ℝ, p ∉ ((planePoles (l.map (member z)) ∪ planeKinks (l.map (member z)) : Finset (ℝ × ℝ)) : Set (ℝ × ℝ)) :=
      measure_eq_zero_iff_ae_notMem.1 ((Finset.finite_toSet _).measure_zero volume)
    filter_upwards [hfin] with p hp
    rw [Finset.mem_coe, Finset.mem_union, not_or] at hp
    have el : (l.map reaching).map Reaching.lens = l.map lens := by
      rw [List.map_map]
      exact List.map_congr_left fun m hm => (reaching_spec (hok m hm)).2.2
    have hC := C128_single_plane (l.map reaching) (by
      intro n hn
      obtain ⟨m, hm, rfl⟩ := List.mem_map.1 hn
      exact (reaching_spec (hok m hm)).1) z p _ rfl
    rcases hC with ⟨n, hn, hlt⟩ | hC
    · obtain ⟨m, hm, rfl⟩ := List.mem_map.1 hn
      exact Or.inl ⟨m, hm, hlt⟩
    · refine Or.inr ⟨_, massive_value z l hok hp.1 hp.2, ?_⟩
      rw [el] at hC
      refine hC.trans ?_
      rw [List.map_map, List.map_map]
      have e0 : (l.map ((fun m : Reaching => m.g * len2 (p - m.c)) ∘ reaching)).sum = 0 := List.sum_eq_zero fun x hx => by
        obtain ⟨m, hm, rfl⟩ := List.mem_map.1 hx
        simp only [Function.comp, (reaching_spec (hok m hm)).2.1, h0 m hm, zero_mul]
      rw [e0, add_zero]
      exact List.sum_le_sum fun m _ => le_abs_self _

/-- A `Multiplane` of any number of lenses of bounded deflection, at any redshifts in front of the source. -/
theorem multiplane_displaces (e : MPEnv ℝ) (zs : ℝ) (hr : e.radToArcsec ≠ 0) (hd : GrowingDist e.dist) (ls : List (ThinLensFn ℝ))
    (hne : ls ≠ []) (hsort : ls.Pairwise fun l m => l.z ≤ m.z) (hb : ∀ l ∈ ls, 0 < l.z ∧ l.z < zs)
    (A : ThinLensFn ℝ → ℝ) (hA : ∀ l ∈ ls, ∀ p : ℝ × ℝ, len2 (l.reduced p.1 p.2) ≤ A l) :
    Displaces (fun x y => mpRaytrace e zs (ls.map (ThinLensFn.plane e zs)) x y) ∅ (ls.map A).sum where
  nonneg := List.sum_nonneg fun x hx => by
    obtain ⟨m, hm, rfl⟩ := List.mem_map.1 hx
    exact (len2_nonneg _).trans (hA m hm 0)
  finite := by simp
  le := Eventually.of_forall fun p => Or.inr (C128_multiplane e zs hr hd ls hne hsort hb A hA p)

/-- **Stars in one plane.** Averaged over the sky, any number of masses in a `SinglePlane` magnify by one. -/
theorem C149_plane (z : ℝ) (l : List MassiveLens) (hok : ∀ m ∈ l, m.Ok) (h0 : ∀ m ∈ l, m.atInfinity = 0) (o : ℝ × ℝ) :
    Tendsto (fun R => (volume (seenDisc (raytraceOpt (singlePlaneO z ((l.map (member z)).map (PlaneMember.lens z))).reduced) o R)).toReal
      / (π * R ^ 2)) atTop (𝓝 1) :=
  C149_mean (plane_displaces z l hok h0) o

/-- **Lenses all along the line of sight.** So does a `Multiplane` of lenses of bounded deflection. -/
theorem C149_multiplane (e : MPEnv ℝ) (zs : ℝ) (hr : e.radToArcsec ≠ 0) (hd : GrowingDist e.dist) (ls : List (ThinLensFn ℝ))
    (hne : ls ≠ []) (hsort : ls.Pairwise fun l m => l.z ≤ m.z) (hb : ∀ l ∈ ls, 0 < l.z ∧ l.z < zs)
    (A : ThinLensFn ℝ → ℝ) (hA : ∀ l ∈ ls, ∀ p : ℝ × ℝ, len2 (l.reduced p.1 p.2) ≤ A l) (o : ℝ × ℝ) :
    Tendsto (fun R => (volume (seenDisc (fun x y => mpRaytrace e zs (ls.map (ThinLensFn.plane e zs)) x y) o R)).toReal
      / (π * R ^ 2)) atTop (𝓝 1) :=
  C149_mean (multiplane_displaces e zs hr hd ls hne hsort hb A hA) o

/-- An isothermal sphere, a star and an ellipsoid. -/
example (z : ℝ) (o : ℝ × ℝ) := C149_plane z [MassiveLens.sis 0 0 1, .point 1 0 1, .sie 0 0 (3 / 5) 1 1 0] (by
    intro m hm
    simp only [List.mem_cons, List.not_mem_nil, or_false] at hm
    rcases hm with rfl | rfl | rfl
    · exact one_pos
    · exact one_pos
    · exact ⟨by norm_num, by norm_num, one_pos, Or.inl rfl⟩) (by
    intro m hm
    simp only [List.mem_cons, List.not_mem_nil, or_false] at hm
    rcases hm with rfl | rfl | rfl <;> rfl) o

/-- Two isothermal spheres at different redshifts. -/
example (o : ℝ × ℝ) := C149_multiplane lineEnv 4 (by norm_num [lineEnv]) lineEnv_growing
    [(sisLens 1 0 2).thin 1, (sisLens 0 1 1).thin 2] (by simp) (by simp [LensFn.thin])
    (by
      intro l hl
      simp only [List.mem_cons, List.not_mem_nil, or_false] at hl
      rcases hl with rfl | rfl <;> norm_num [LensFn.thin]) (fun _ => 2)
    (by
      intro l hl p
      simp only [List.mem_cons, List.not_mem_nil, or_false] at hl
      rcases hl with rfl | rfl
      · have := C128_sis 1 0 2 0 (by norm_num) le_rfl p (len2_nonneg _)
        rw [zero_mul, add_zero] at this
        exact this
      · have := C128_sis 0 1 1 0 (by norm_num) le_rfl p (len2_nonneg _)
        rw [zero_mul, add_zero] at this
        exact this.trans (by norm_num)) o

end Caustics
