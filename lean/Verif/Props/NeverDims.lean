import Verif.Props.ParityCount
import Verif.Props.ObservedFlux
import Mathlib.Analysis.Calculus.FDeriv.Measurable

/-!
C148: lenses of non-negative mass do not dim a source.
-/

namespace Caustics

open FieldLens Filter Topology MeasureTheory MassiveLens

/-- What an observer sees at `p` of a source of brightness `S` behind a lens (`source.brightness(*lens.raytrace(x, y))`,
sims/lens_source.py:376-381); nothing where `raytrace` returns no numbers. -/
noncomputable def observed (trace : ℝ → ℝ → Option (ℝ × ℝ)) (S : ℝ × ℝ → ENNReal) (p : ℝ × ℝ) : ENNReal :=
  match trace p.1 p.2 with
  | some b => S b
  | none => 0

/-- A map that reaches every point at least once with a Jacobian of at most `c` gathers at least `1 / c` of an integral. -/
theorem flux_ge {f : ℝ × ℝ → ℝ × ℝ} {c : ℝ}
    (h : ∀ b, ∃ p, f p = b ∧ ∃ L : ℝ × ℝ →L[ℝ] ℝ × ℝ, HasFDerivAt f L p ∧ |L.det| ≤ c) {S : ℝ × ℝ → ENNReal}
    (hS : Measurable S) : ∫⁻ b, S b ≤ ENNReal.ofReal c * ∫⁻ p, S (f p) := by
  set E : Set (ℝ × ℝ) := {p | DifferentiableAt ℝ f p} ∩ {p | |(fderiv ℝ f p).det| ≤ c} with hE
  have hEm : MeasurableSet E := by
    refine (measurableSet_of_differentiableAt ℝ f).inter (measurableSet_le ?_ measurable_const)
    exact (continuous_abs.comp ContinuousLinearMap.continuous_det).measurable.comp (measurable_fderiv ℝ f)
  have hcont : ContinuousOn f E := fun p hp => hp.1.continuousAt.continuousWithinAt
  have hpre : ∀ B, MeasurableSet B → MeasurableSet (E ∩ f ⁻¹' B) := by
    intro B hB
    have h1 : Measurable (E.domRestrict f) := (continuousOn_iff_continuous_domRestrict.1 hcont).measurable
    have h2 := (MeasurableEmbedding.subtype_coe hEm).measurableSet_image.2 (h1 hB)
    have h3 : Subtype.val '' (E.domRestrict f ⁻¹' B) = E ∩ f ⁻¹' B := by
      ext p
      constructor
      · rintro ⟨⟨q, hq⟩, hb, rfl⟩
        exact ⟨hq, hb⟩
      · exact fun hp => ⟨⟨p, hp.1⟩, hp.2, rfl⟩
    rwa [h3] at h2
  have hae : AEMeasurable f (volume.restrict E) := hcont.aemeasurable hEm
  have hle : (volume : Measure (ℝ × ℝ)) ≤ ENNReal.ofReal c • Measure.map f (volume.restrict E) := by
    rw [Measure.le_iff]
    intro B hB
    have hsub : B ⊆ f '' (E ∩ f ⁻¹' B) := by
      intro b hb
      obtain ⟨p, rfl, L, hL, hdet⟩ := h b
      exact ⟨p, ⟨⟨hL.differentiableAt, by rw [Set.mem_ofPred_eq, hL.fderiv]; exact hdet⟩, hb⟩, rfl⟩
    have h1 := addHaar_image_le_lintegral_abs_det_fderiv volume (hpre B hB)
      (f := f) (f' := fderiv ℝ f) fun p hp => hp.1.1.hasFDerivAt.hasFDerivWithinAt
    refine (measure_mono hsub).trans (h1.trans ?_)
    rw [Measure.smul_apply, smul_eq_mul, Measure.map_apply_of_aemeasurable hae hB, Measure.restrict_apply' hEm,
      Set.inter_comm (f ⁻¹' B), ← setLIntegral_const]
    exact setLIntegral_mono' (hpre B hB) fun p hp => ENNReal.ofReal_le_ofReal hp.1.2
  calc ∫⁻ b, S b ≤ ∫⁻ b, S b ∂(ENNReal.ofReal c • Measure.map f (volume.restrict E)) := lintegral_mono' hle le_rfl
    _ = ENNReal.ofReal c * ∫⁻ p in E, S (f p) := by
      rw [lintegral_smul_measure, lintegral_map' hS.aemeasurable hae, smul_eq_mul]
    _ ≤ ENNReal.ofReal c * ∫⁻ p, S (f p) := by
      gcongr
      exact Measure.restrict_le_self

namespace MassiveLens

/-- The part of the convergence that is the same everywhere. -/
def uniform : MassiveLens → ℝ
  | sheet _ _ kappa => kappa
  | _ => 0

theorem uniform_le {m : MassiveLens} (h : m.Ok) (x y : ℝ) : 0 ≤ m.uniform ∧ m.uniform ≤ m.lens.convergence x y := by
  cases m with
  | sis x0 y0 R =>
    have hR : 0 < R := h
    refine ⟨le_rfl, ?_⟩
    simp only [uniform, lens, sisLens, sisConvergence]
    positivity
  | point x0 y0 R =>
    refine ⟨le_rfl, ?_⟩
    simp only [uniform, lens, pointLens, pointConvergence]
    split <;> simp
  | sie x0 y0 q phi R s =>
    have hR : 0 < R := h.2.2.1
    refine ⟨le_rfl, ?_⟩
    simp only [uniform, lens, sieLens, sieConvergence]
    positivity
  | sheet x0 y0 k =>
    refine ⟨h, ?_⟩
    simp [uniform, lens, sheetLens, sheetConvergence]
  | shear x0 y0 g1 g2 => exact ⟨le_rfl, le_rfl⟩
  | jaffe L => exact ⟨le_rfl, jaffe_convergence_nonneg L h.1 h.2.1 h.2.2 x y⟩

theorem uniform_atInfinity (m : MassiveLens) : m.uniform ≤ m.atInfinity := by
  cases m <;> simp [uniform, atInfinity]

end MassiveLens

theorem uniform_sum (l : List MassiveLens) (hok : ∀ m ∈ l, m.Ok) (x y : ℝ) :
    0 ≤ (l.map uniform).sum ∧ (l.map uniform).sum ≤ (singlePlane (l.map lens)).convergence x y := by
  induction l with
  | nil => simp [singlePlane, singlePlaneConvergence]
  | cons m l ih =>
    obtain ⟨h1, h2⟩ := ih fun m hm => hok m (List.mem_cons_of_mem _ hm)
    obtain ⟨h3, h4⟩ := uniform_le (hok m (by simp)) x y
    rw [List.map_cons, List.map_cons, List.sum_cons, singlePlane_cons]
    exact ⟨add_nonneg h3 h1, add_le_add h4 h2⟩

/-- **A lens does not dim a source.** Behind a plane of any number of masses, the sheets and shears adding up to less than one,
the whole image of any source holds at least the flux of the source, and more by `1 / (1 - kappa)^2` when `kappa` is the sum
of the sheets. -/
theorem C148_flux (z : ℝ) (l : List MassiveLens) (hok : ∀ m ∈ l, m.Ok) (hsum : (l.map atInfinity).sum < 1)
    {S : ℝ × ℝ → ENNReal} (hS : Measurable S) :
    ∫⁻ b, S b ≤ ENNReal.ofReal ((1 - (l.map uniform).sum) ^ 2) *
      ∫⁻ p, observed (raytraceOpt (singlePlaneO z ((l.map (member z)).map (PlaneMember.lens z))).reduced) S p := by
  set P := singlePlane (l.map lens) with hP
  have hm := massive_singlePlane (l.map fun m => (m.lens, m.atInfinity / 2)) (by
    intro m hm
    obtain ⟨m', hm', rfl⟩ := List.mem_map.mp hm
    exact m'.massive (hok m' hm'))
  rw [List.map_map, List.map_map] at hm
  have e1 : (Prod.fst ∘ fun m : MassiveLens => (m.lens, m.atInfinity / 2)) = MassiveLens.lens := rfl
  have e2 : (l.map (Prod.snd ∘ fun m : MassiveLens => (m.lens, m.atInfinity / 2))).sum
      = (l.map MassiveLens.atInfinity).sum / 2 := by
    clear hm hok hsum hP P
    induction l with
    | nil => simp
    | cons m l ih =>
      rw [List.map_cons, List.sum_cons, List.map_cons, List.sum_cons, ih]
      simp only [Function.comp]
      ring
  rw [e1, e2, ← hP] at hm
  obtain ⟨hm⟩ := hm
  have hflux := flux_ge (f := fun p => (p.1 - (P.deflection p.1 p.2).1, p.2 - (P.deflection p.1 p.2).2))
    (c := (1 - (l.map uniform).sum) ^ 2) (fun b => by
      obtain ⟨p, hp, hmin⟩ := exists_first hm (by linarith) b.1 b.2
      obtain ⟨hreg, himg, hjac⟩ := first_spec hm hp hmin
      obtain ⟨axx, axy, ayy, hJ, hκ⟩ := hreg.2.1
      have hM : HasJac (fun x y => (x - (P.deflection x y).1, y - (P.deflection x y).2)) (1 - axx) (0 - axy) (0 - axy)
        (1 - ayy) p.1 p.2 := ⟨(HasGrad.fst p.1 p.2).sub hJ.1, (HasGrad.snd p.1 p.2).sub hJ.2⟩
      obtain ⟨-, -, j3, j4, j5⟩ := hjac ⟨1 - axx, 0 - axy, 0 - axy, 1 - ayy⟩ hM
      obtain ⟨L, hL, hdet⟩ := hasJac_fderiv hM
      refine ⟨p, himg, L, hL, ?_⟩
      rw [hdet, abs_of_nonneg j3]
      refine j4.trans (pow_le_pow_left₀ (by linarith) ?_ 2)
      have := (uniform_sum l hok p.1 p.2).2
      linarith) hS
  refine hflux.trans (le_of_eq ?_)
  congr 1
  refine lintegral_congr_ae ?_
  have : NullSingletonClass (volume : Measure (ℝ × ℝ)) := Measure.prod.instNullSingletonClass_fst
  have hfin : ∀ᵐ p : ℝ × ℝ, p ∉ ((planePoles (l.map (member z)) ∪ planeKinks (l.map (member z)) : Finset (ℝ × ℝ)) : Set (ℝ × ℝ)) :=
    measure_eq_zero_iff_ae_notMem.1 ((Finset.finite_toSet _).measure_zero volume)
  filter_upwards [hfin] with p hp
  rw [Finset.mem_coe, Finset.mem_union, not_or] at hp
  simp only [observed, massive_value z l hok hp.1 hp.2]
  rfl

/-- In particular without counting the sheets. -/
theorem C148_not_dimmed (z : ℝ) (l : List MassiveLens) (hok : ∀ m ∈ l, m.Ok) (hsum : (l.map atInfinity).sum < 1)
    {S : ℝ × ℝ → ENNReal} (hS : Measurable S) :
    ∫⁻ b, S b ≤
      ∫⁻ p, observed (raytraceOpt (singlePlaneO z ((l.map (member z)).map (PlaneMember.lens z))).reduced) S p := by
  refine (C148_flux z l hok hsum hS).trans ?_
  have h0 := (uniform_sum l hok 0 0).1
  have h1 : (l.map uniform).sum ≤ (l.map atInfinity).sum := by
    clear hok hsum h0
    induction l with
    | nil => simp
    | cons m l ih =>
      rw [List.map_cons, List.sum_cons, List.map_cons, List.sum_cons]
      exact add_le_add (uniform_atInfinity m) ih
  have h2 : ENNReal.ofReal ((1 - (l.map uniform).sum) ^ 2) ≤ 1 := by
    rw [ENNReal.ofReal_le_one]
    nlinarith
  exact mul_le_of_le_one_left (zero_le) h2

/-- A region of the source plane is covered by at least its own area of the image plane. -/
theorem C148_area (z : ℝ) (l : List MassiveLens) (hok : ∀ m ∈ l, m.Ok) (hsum : (l.map atInfinity).sum < 1)
    {B : Set (ℝ × ℝ)} (hB : MeasurableSet B) :
    volume B ≤ volume {p : ℝ × ℝ | ∃ b ∈ B,
      raytraceOpt (singlePlaneO z ((l.map (member z)).map (PlaneMember.lens z))).reduced p.1 p.2 = some b} := by
  have h := C148_not_dimmed z l hok hsum (S := B.indicator 1) (measurable_one.indicator hB)
  rw [lintegral_indicator_one hB] at h
  refine h.trans ?_
  set T := {p : ℝ × ℝ | ∃ b ∈ B,
      raytraceOpt (singlePlaneO z ((l.map (member z)).map (PlaneMember.lens z))).reduced p.1 p.2 = some b}
  refine le_trans (lintegral_mono (g := T.indicator 1) fun p => ?_) (lintegral_indicator_one_le T)
  by_cases hp : p ∈ T
  · rw [Set.indicator_of_mem hp]
    simp only [observed]
    split
    · exact Set.indicator_le_self' (fun _ _ => zero_le) _
    · exact zero_le
  · rw [Set.indicator_of_notMem hp, nonpos_iff_eq_zero]
    simp only [observed]
    split
    · rename_i b hb
      exact Set.indicator_of_notMem (fun hbB => hp ⟨b, hbB, hb⟩) _
    · rfl

/-- Behind a single sheet the bound is attained; the flux is the same wherever the sheet is centred. -/
theorem C148_sheet (z x0 y0 k : ℝ) (hk : k ≠ 1) (S : ℝ × ℝ → ENNReal) :
    ∫⁻ b, S b = ENNReal.ofReal ((1 - k) ^ 2) *
      ∫⁻ p, observed (raytraceOpt (singlePlaneO z [(PlaneMember.field (.sheet x0 y0 k)).lens z]).reduced) S p := by
  have hk' : 1 - k ≠ 0 := sub_ne_zero.2 hk.symm
  set β : ℝ → ℝ → ℝ × ℝ := fun x y => (x - (x - x0) * k, y - (y - y0) * k) with hβ
  have hM : ∀ p ∈ (Set.univ : Set (ℝ × ℝ)), HasJac β (1 - k) 0 0 (1 - k) p.1 p.2 := by
    intro p _
    have hx := HasGrad.fst p.1 p.2
    have hy := HasGrad.snd p.1 p.2
    have h1 := hx.sub ((hx.sub (HasGrad.const x0 p.1 p.2)).mul (HasGrad.const k p.1 p.2))
    have h2 := hy.sub ((hy.sub (HasGrad.const y0 p.1 p.2)).mul (HasGrad.const k p.1 p.2))
    exact ⟨h1.congr (by ring) (by ring), h2.congr (by ring) (by ring)⟩
  have hinj : ∀ p ∈ (Set.univ : Set (ℝ × ℝ)), ∀ p' ∈ (Set.univ : Set (ℝ × ℝ)), β p.1 p.2 = β p'.1 p'.2 → p = p' := by
    intro p _ p' _ e
    have e1 := congrArg Prod.fst e
    have e2 := congrArg Prod.snd e
    simp only [hβ] at e1 e2
    exact Prod.ext (mul_left_cancel₀ hk' (by linarith)) (mul_left_cancel₀ hk' (by linarith))
  have himg : (fun p : ℝ × ℝ => β p.1 p.2) '' Set.univ = Set.univ := by
    rw [Set.image_univ, Set.range_eq_univ]
    intro b
    refine ⟨((b.1 - x0 * k) / (1 - k), (b.2 - y0 * k) / (1 - k)), ?_⟩
    refine Prod.ext ?_ ?_ <;> · simp only [hβ]; field_simp; ring
  have h := C85_region MeasurableSet.univ (M := fun _ => ⟨1 - k, 0, 0, 1 - k⟩) hM hinj S
  have hmag : 1 / pixelMagnification (⟨1 - k, 0, 0, 1 - k⟩ : M22 ℝ) = (1 - k) ^ 2 := by
    rw [pixelMagnification, one_div_one_div, abs_of_nonneg (by nlinarith [sq_nonneg (1 - k)])]
    ring
  rw [himg, setLIntegral_univ, setLIntegral_univ, hmag, lintegral_mul_const' _ _ ENNReal.ofReal_ne_top] at h
  rw [← h, mul_comm]
  congr 1
  refine lintegral_congr fun p => ?_
  simp [observed, raytraceOpt, singlePlaneO, PlaneMember.lens, thin, sheetDeflection, translateRotate, hβ]

/-- Mass matters: an underdense sheet dims every source. -/
theorem C148_void (z x0 y0 k : ℝ) (hk : k < 0) (S : ℝ × ℝ → ENNReal) (h0 : ∫⁻ b, S b ≠ 0) (h1 : ∫⁻ b, S b ≠ ⊤) :
    ∫⁻ p, observed (raytraceOpt (singlePlaneO z [(PlaneMember.field (.sheet x0 y0 k)).lens z]).reduced) S p < ∫⁻ b, S b := by
  have h := C148_sheet z x0 y0 k (by linarith) S
  generalize ∫⁻ p, observed (raytraceOpt (singlePlaneO z [(PlaneMember.field (.sheet x0 y0 k)).lens z]).reduced) S p = I at h
  rw [h] at h0 h1 ⊢
  have hI0 : I ≠ 0 := fun e => h0 (by rw [e, mul_zero])
  have hc : (1 : ENNReal) < ENNReal.ofReal ((1 - k) ^ 2) := by
    rw [ENNReal.one_lt_ofReal]
    nlinarith
  have hIt : I ≠ ⊤ := fun e => h1 (by rw [e, ENNReal.mul_top (by exact (zero_lt_one.trans hc).ne')])
  calc I = 1 * I := (one_mul I).symm
    _ < ENNReal.ofReal ((1 - k) ^ 2) * I := by
      exact (ENNReal.mul_lt_mul_iff_left hI0 hIt).2 hc

/-- A galaxy, a star and a cluster galaxy in a field of convergence 1/5 and shear 3/10: at least 25/16 of the flux. -/
example (z : ℝ) {S : ℝ × ℝ → ENNReal} (hS : Measurable S) : ∫⁻ b, S b ≤ ENNReal.ofReal (16 / 25) *
    ∫⁻ p, observed (raytraceOpt (singlePlaneO z (([MassiveLens.sie 0 0 (3 / 5) 1 1 0, .point 1 0 (1 / 10),
      .jaffe ⟨1, 3, 0, 2, 1, 2, 1, 1, 1, 1 / (4 * Real.pi), 0⟩, .sheet 0 0 (1 / 5), .shear 0 0 (3 / 10) 0].map
        (member z)).map (PlaneMember.lens z))).reduced) S p := by
  have h := C148_flux z [MassiveLens.sie 0 0 (3 / 5) 1 1 0, .point 1 0 (1 / 10),
      .jaffe ⟨1, 3, 0, 2, 1, 2, 1, 1, 1, 1 / (4 * Real.pi), 0⟩, .sheet 0 0 (1 / 5), .shear 0 0 (3 / 10) 0] (by
    intro m hm
    simp only [List.mem_cons, List.not_mem_nil, or_false] at hm
    rcases hm with rfl | rfl | rfl | rfl | rfl
    · exact ⟨by norm_num, by norm_num, one_pos, Or.inl rfl⟩
    · exact (by norm_num : (0 : ℝ) < 1 / 10)
    · exact ⟨⟨by norm_num, by norm_num, by norm_num, by norm_num, by norm_num, by norm_num, by norm_num, by norm_num⟩,
        by norm_num, rfl⟩
    · exact (by norm_num : (0 : ℝ) ≤ 1 / 5)
    · trivial) (by
    simp only [List.map_cons, List.map_nil, atInfinity, List.sum_cons, List.sum_nil]
    rw [show ((3 : ℝ) / 10) ^ 2 + 0 ^ 2 = (3 / 10) ^ 2 by ring, Real.sqrt_sq (by norm_num)]
    norm_num) hS
  convert h using 3
  simp only [List.map_cons, List.map_nil, uniform, List.sum_cons, List.sum_nil]
  norm_num

/-! ### In a frame -/

/-- The lens with the circle around it inside which nothing is said, and the bound on its deflection outside (C128). -/
noncomputable def MassiveLens.reaching : MassiveLens → Reaching
  | m@(sis x0 y0 Rein) => ⟨m.lens, (x0, y0), 0, Rein, 0⟩
  | m@(point x0 y0 Rein) => ⟨m.lens, (x0, y0), Rein, Rein, 0⟩
  | m@(sie x0 y0 q _ Rein _) => ⟨m.lens, (x0, y0), 0, sieReach q Rein, 0⟩
  | m@(sheet x0 y0 kappa) => ⟨m.lens, (x0, y0), 0, 0, |kappa|⟩
  | m@(shear x0 y0 g1 g2) => ⟨m.lens, (x0, y0), 0, 0, √(g1 ^ 2 + g2 ^ 2)⟩
  | m@(jaffe L) => ⟨m.lens, (L.x0, L.y0), massToReinPoint L.Gc2 L.mass L.d_ls L.d_l L.d_s,
      massToReinPoint L.Gc2 L.mass L.d_ls L.d_l L.d_s, 0⟩

theorem reaching_spec {m : MassiveLens} (h : m.Ok) :
    Reach m.reaching.lens.deflection m.reaching.c m.reaching.rho m.reaching.B m.reaching.g ∧ m.reaching.g = m.atInfinity ∧
      m.reaching.lens = m.lens := by
  cases m with
  | sis x0 y0 R => exact ⟨C128_sis x0 y0 R 0 (le_of_lt h) le_rfl, rfl, rfl⟩
  | point x0 y0 R => exact ⟨C128_point x0 y0 R 0 (le_of_lt h) le_rfl, rfl, rfl⟩
  | sie x0 y0 q phi R s =>
    refine ⟨C128_sie x0 y0 q phi R s h.1 h.2.1 h.2.2.1.le ?_, rfl, rfl⟩
    rcases h.2.2.2 with e | e
    · exact e.ge
    · linarith
  | sheet x0 y0 k => exact ⟨C128_mass_sheet x0 y0 k, abs_of_nonneg h, rfl⟩
  | shear x0 y0 g1 g2 => exact ⟨C128_shear x0 y0 g1 g2, rfl, rfl⟩
  | jaffe L => exact ⟨C128_pseudo_jaffe L h.1 h.2.1 h.2.2, rfl, rfl⟩

/-- **The frame that holds the flux.** A source that ends at the distance `r` from a point `o`, and any frame that covers the
circles around the point masses and pseudo-Jaffe lenses and a circle about `o` as large as C128 says: the image in the frame
holds at least the flux of the source. -/
theorem C148_in_frame (z : ℝ) (l : List MassiveLens) (hok : ∀ m ∈ l, m.Ok) (hsum : (l.map atInfinity).sum < 1)
    {S : ℝ × ℝ → ENNReal} (hS : Measurable S) (o : ℝ × ℝ) (r : ℝ) (hr : ∀ b, S b ≠ 0 → len2 (b - o) ≤ r)
    {F : Set (ℝ × ℝ)} (hF : MeasurableSet F) (h1 : ∀ m ∈ l, ∀ p, len2 (p - m.reaching.c) < m.reaching.rho → p ∈ F)
    (h2 : ∀ p, len2 (p - o) ≤ (r + (l.map fun m => m.reaching.B).sum +
      (l.map fun m => m.atInfinity * len2 (m.reaching.c - o)).sum) / (1 - (l.map atInfinity).sum) → p ∈ F) :
    ∫⁻ b, S b ≤ ENNReal.ofReal ((1 - (l.map uniform).sum) ^ 2) *
      ∫⁻ p in F, observed (raytraceOpt (singlePlaneO z ((l.map (member z)).map (PlaneMember.lens z))).reduced) S p := by
  refine (C148_flux z l hok hsum hS).trans (le_of_eq ?_)
  congr 1
  rw [← lintegral_indicator hF]
  refine lintegral_congr_ae ?_
  have : NullSingletonClass (volume : Measure (ℝ × ℝ)) := Measure.prod.instNullSingletonClass_fst
  have hfin : ∀ᵐ p : ℝ × ℝ, p ∉ ((planePoles (l.map (member z)) ∪ planeKinks (l.map (member z)) : Finset (ℝ × ℝ)) : Set (ℝ × ℝ)) :=
    measure_eq_zero_iff_ae_notMem.1 ((Finset.finite_toSet _).measure_zero volume)
  filter_upwards [hfin] with p hp
  rw [Finset.mem_coe, Finset.mem_union, not_or] at hp
  by_cases hpF : p ∈ F
  · rw [Set.indicator_of_mem hpF]
  rw [Set.indicator_of_notMem hpF]
  simp only [observed, massive_value z l hok hp.1 hp.2]
  by_contra hne
  refine hpF ?_
  set b : ℝ × ℝ := (p.1 - ((singlePlane (l.map lens)).deflection p.1 p.2).1,
    p.2 - ((singlePlane (l.map lens)).deflection p.1 p.2).2) with hb
  have eg : (l.map reaching).map Reaching.g = l.map atInfinity := by
    rw [List.map_map]
    exact List.map_congr_left fun m hm => (reaching_spec (hok m hm)).2.1
  have el : (l.map reaching).map Reaching.lens = l.map lens := by
    rw [List.map_map]
    exact List.map_congr_left fun m hm => (reaching_spec (hok m hm)).2.2
  have ec : (l.map reaching).map (fun m => m.g * len2 (m.c - o)) = l.map fun m => m.atInfinity * len2 (m.reaching.c - o) := by
    rw [List.map_map]
    exact List.map_congr_left fun m hm => by
      rw [Function.comp, (reaching_spec (hok m hm)).2.1]
  have hg : ∀ m : MassiveLens, m.Ok → 0 ≤ m.atInfinity := by
    intro m hm
    cases m with
    | sheet => exact hm
    | shear => exact Real.sqrt_nonneg _
    | _ => exact le_rfl
  have hC := C128_field (l.map reaching) (by
      intro n hn
      obtain ⟨m, hm, rfl⟩ := List.mem_map.1 hn
      exact (reaching_spec (hok m hm)).1) (by
      intro n hn
      obtain ⟨m, hm, rfl⟩ := List.mem_map.1 hn
      rw [(reaching_spec (hok m hm)).2.1]
      exact hg m (hok m hm)) (by rwa [eg]) z p b o (by rw [el]; rfl)
  rw [eg, ec, List.map_map] at hC
  rcases hC with ⟨n, hn, hlt⟩ | hC
  · obtain ⟨m, hm, rfl⟩ := List.mem_map.1 hn
    exact h1 m hm p hlt
  · refine h2 p (hC.trans ?_)
    refine div_le_div_of_nonneg_right ?_ (by linarith)
    have := hr b hne
    exact add_le_add (add_le_add this le_rfl) le_rfl

/-- A galaxy with a star, in a field of convergence 1/5; a source within 1/10 of the centre: a frame of radius 3 holds it. -/
example (z : ℝ) {S : ℝ × ℝ → ENNReal} (hS : Measurable S) (hr : ∀ b, S b ≠ 0 → len2 (b - 0) ≤ 1 / 10) :
    ∫⁻ b, S b ≤ ∫⁻ p in {p : ℝ × ℝ | len2 (p - 0) ≤ 3}, observed (raytraceOpt (singlePlaneO z (([MassiveLens.sis 0 0 1,
      .point 1 0 1, .sheet 0 0 (1 / 5)].map (member z)).map (PlaneMember.lens z))).reduced) S p := by
  have hm : Measurable fun p : ℝ × ℝ => len2 (p - 0) := by
    unfold len2
    fun_prop
  have h := C148_in_frame z [MassiveLens.sis 0 0 1, .point 1 0 1, .sheet 0 0 (1 / 5)] (by
      intro m hm
      simp only [List.mem_cons, List.not_mem_nil, or_false] at hm
      rcases hm with rfl | rfl | rfl
      · exact one_pos
      · exact one_pos
      · exact (by norm_num : (0 : ℝ) ≤ 1 / 5)) (by
      simp only [List.map_cons, List.map_nil, atInfinity, List.sum_cons, List.sum_nil]
      norm_num) hS 0 (1 / 10) hr (F := {p : ℝ × ℝ | len2 (p - 0) ≤ 3}) (measurableSet_le hm measurable_const) (by
      intro m hm p hp
      simp only [List.mem_cons, List.not_mem_nil, or_false] at hm
      rw [Set.mem_ofPred_eq]
      rcases hm with rfl | rfl | rfl
      · exact absurd hp (not_lt.2 (len2_nonneg _))
      · have h3 := len2_add (p - ((1, 0) : ℝ × ℝ)) ((1, 0) - 0)
        rw [sub_add_sub_cancel] at h3
        have h4 : len2 (((1, 0) : ℝ × ℝ) - 0) = 1 := by simp [len2]
        have h5 : len2 (p - ((1, 0) : ℝ × ℝ)) < 1 := hp
        linarith
      · exact absurd hp (not_lt.2 (len2_nonneg _))) (by
      intro p hp
      refine hp.trans ?_
      have e0 : len2 (((0, 0) : ℝ × ℝ) - 0) = 0 := by simp [len2]
      simp only [List.map_cons, List.map_nil, atInfinity, List.sum_cons, List.sum_nil, reaching, e0]
      norm_num)
  refine h.trans (mul_le_of_le_one_left zero_le ?_)
  rw [ENNReal.ofReal_le_one]
  simp only [List.map_cons, List.map_nil, uniform, List.sum_cons, List.sum_nil]
  norm_num

end Caustics
