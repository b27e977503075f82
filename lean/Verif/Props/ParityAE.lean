import Verif.Props.ParitySum
import Mathlib.MeasureTheory.Function.Jacobian
import Mathlib.MeasureTheory.Measure.Lebesgue.Complex

/-!
C143, continued: what it says for almost every source, and the lenses it speaks about.
-/

namespace Caustics

open ComplexConjugate FieldLens Filter Topology PlaneMember MeasureTheory

theorem null_pairs {s : Set ℂ} (h : volume s = 0) : volume {b : ℝ × ℝ | (⟨b.1, b.2⟩ : ℂ) ∈ s} = 0 :=
  Complex.volume_preserving_equiv_real_prod.symm.quasiMeasurePreserving.preimage_null h

theorem det_planar (D : ℂ →L[ℝ] ℂ) : D.det = (conj (D 1) * D Complex.I).im := by
  rw [ContinuousLinearMap.det, ← LinearMap.det_toMatrix Complex.basisOneI, Matrix.det_fin_two]
  simp [LinearMap.toMatrix_apply, Complex.mul_im]
  ring

/-- The sources with an image on a critical curve have no area. -/
theorem critical_null {f : ℂ → ℂ} {Z : Finset ℂ} (hf : ∀ w ∉ Z, ContDiffAt ℝ 1 f w) :
    volume (f '' {w | w ∉ Z ∧ planeDet f w = 0}) = 0 := by
  refine addHaar_image_eq_zero_of_det_fderivWithin_eq_zero volume (f' := fun w => fderiv ℝ f w) (fun w hw => ?_) fun w hw => ?_
  · exact ((hf w hw.1).differentiableAt one_ne_zero).hasFDerivAt.hasFDerivWithinAt
  · rw [det_planar]
    exact hw.2

/-- At each singular isothermal sphere or ellipsoid the rest of the lens is defined and smooth. -/
def Separate (z : ℝ) (l : List PlaneMember) : Prop :=
  ∀ pre post m p, l = pre ++ m :: post → m.cusp = some p → p ∉ planeKinks l ∧
    ∃ c, raytraceOpt (singlePlaneO z ((pre ++ post).map (lens z))).reduced p.1 p.2 = some c

/-- The edge of a cut has no area. -/
theorem onCut_null {m : PlaneMember} (hm : m.Valid) (c : ℝ × ℝ) :
    ∀ᵐ b : ℝ × ℝ, ¬m.onCut (c.1 - b.1, c.2 - b.2) := by
  cases m with
  | field => exact Eventually.of_forall fun b h => h
  | sis x0 y0 R =>
    have hR : 0 < R := hm
    have hnull := measure_eq_zero_iff_ae_notMem.1 (null_pairs (s := Metric.sphere (⟨c.1, c.2⟩ : ℂ) R)
      (Measure.addHaar_sphere_of_ne_zero volume _ hR.ne'))
    filter_upwards [hnull] with b hb h
    refine hb (show (⟨b.1, b.2⟩ : ℂ) ∈ Metric.sphere (⟨c.1, c.2⟩ : ℂ) R from ?_)
    rw [mem_sphere_iff_norm]
    simp only [onCut] at h
    have e : ‖(⟨b.1, b.2⟩ : ℂ) - ⟨c.1, c.2⟩‖ ^ 2 = R ^ 2 := by
      rw [← h, ← Complex.normSq_eq_norm_sq, Complex.normSq_apply, Complex.sub_re, Complex.sub_im]
      ring
    exact (pow_left_inj₀ (norm_nonneg _) hR.le two_ne_zero).1 e
  | cone L x0 y0 a =>
    have ha : Conical L x0 y0 a := hm
    have hs : ∀ w ∉ ({0} : Finset ℂ), ContDiffAt ℝ 1 (fun v => (⟨c.1, c.2⟩ : ℂ) - a v) w := fun w hw =>
      contDiffAt_const.sub (ha.smooth w (by simpa using hw))
    have hnull := measure_eq_zero_iff_ae_notMem.1 (null_pairs (critical_null hs))
    filter_upwards [hnull] with b hb h
    obtain ⟨v, hv, h1⟩ := h
    have hv' : v ∉ ({0} : Finset ℂ) := by simpa using hv
    refine hb ⟨v, ⟨hv', ?_⟩, ?_⟩
    · have hd := ((hs v hv').differentiableAt one_ne_zero).hasFDerivAt
      set D := fderiv ℝ (fun v => (⟨c.1, c.2⟩ : ℂ) - a v) v with hD
      -- constant along the ray
      have h2 : D v = 0 := by
        have h3 : HasDerivAt (fun t : ℝ => (t : ℂ) * v) v 1 := by
          have := (Complex.ofRealCLM.hasDerivAt (x := (1 : ℝ))).mul_const v
          simpa using this
        have hd' : HasFDerivAt (fun v => (⟨c.1, c.2⟩ : ℂ) - a v) D (((1 : ℝ) : ℂ) * v) := by
          rw [Complex.ofReal_one, one_mul]
          exact hd
        have h4 := hd'.comp_hasDerivAt (1 : ℝ) h3
        have h5 : HasDerivAt (fun t : ℝ => (⟨c.1, c.2⟩ : ℂ) - a (t * v)) 0 1 := by
          refine (hasDerivAt_const (1 : ℝ) ((⟨c.1, c.2⟩ : ℂ) - a v)).congr_of_eventuallyEq ?_
          filter_upwards [lt_mem_nhds (zero_lt_one' ℝ)] with t ht
          rw [ha.scale t ht]
        exact h4.unique h5
      have e : v = v.re • (1 : ℂ) + v.im • Complex.I := by apply Complex.ext <;> simp
      rw [e, map_add, map_smul, map_smul] at h2
      have hre := congrArg Complex.re h2
      have him := congrArg Complex.im h2
      simp only [Complex.add_re, Complex.add_im, Complex.smul_re, Complex.smul_im, smul_eq_mul, Complex.zero_re,
        Complex.zero_im] at hre him
      rw [planeDet, ← hD, Complex.mul_im, Complex.conj_re, Complex.conj_im]
      have hx : v.re * ((D 1).re * (D Complex.I).im + -(D 1).im * (D Complex.I).re) = 0 := by
        linear_combination (D Complex.I).im * hre - (D Complex.I).re * him
      have hy : v.im * ((D 1).re * (D Complex.I).im + -(D 1).im * (D Complex.I).re) = 0 := by
        linear_combination (D 1).re * him - (D 1).im * hre
      by_contra h0
      exact hv (Complex.ext ((mul_eq_zero.1 hx).resolve_right h0) ((mul_eq_zero.1 hy).resolve_right h0))
    · change (⟨c.1, c.2⟩ : ℂ) - a v = ⟨b.1, b.2⟩
      rw [h1]
      exact Complex.ext (by simp) (by simp)
  | spike => exact Eventually.of_forall fun b h => h
  | other => exact Eventually.of_forall fun b h => h

theorem generic_ae (z : ℝ) (l : List PlaneMember) (hl : ∀ m ∈ l, m.Valid) (hs : Separate z l) : ∀ᵐ b : ℝ × ℝ, Generic z l b := by
  classical
  haveI : NullSingletonClass (volume : Measure (ℝ × ℝ)) := Measure.prod.instNullSingletonClass_fst
  have h1 : ∀ p ∈ planeKinks l, ∀ᵐ b : ℝ × ℝ, p ∉ planeImages z l b ∧ ¬∃ F : ℝ × ℝ → ℝ × ℝ,
      (∀ᶠ q in 𝓝[≠] p, raytraceOpt (singlePlaneO z (l.map (lens z))).reduced q.1 q.2 = some (F q)) ∧
      Tendsto F (𝓝[≠] p) (𝓝 b) := by
    intro p _
    have hA : {b : ℝ × ℝ | p ∈ planeImages z l b}.Subsingleton := fun b hb b' hb' => Option.some.inj (hb.symm.trans hb')
    have hB : {b : ℝ × ℝ | ∃ F : ℝ × ℝ → ℝ × ℝ,
        (∀ᶠ q in 𝓝[≠] p, raytraceOpt (singlePlaneO z (l.map (lens z))).reduced q.1 q.2 = some (F q)) ∧
        Tendsto F (𝓝[≠] p) (𝓝 b)}.Subsingleton := by
      rintro b ⟨F, hF, hb⟩ b' ⟨F', hF', hb'⟩
      have e : F =ᶠ[𝓝[≠] p] F' := by
        filter_upwards [hF, hF'] with q k1 k2
        exact Option.some.inj (k1.symm.trans k2)
      exact tendsto_nhds_unique (hb.congr' e) hb'
    have h3 := measure_eq_zero_iff_ae_notMem.1 (hA.measure_zero (volume : Measure (ℝ × ℝ)))
    have h4 := measure_eq_zero_iff_ae_notMem.1 (hB.measure_zero (volume : Measure (ℝ × ℝ)))
    filter_upwards [h3, h4] with b k1 k2
    exact ⟨k1, k2⟩
  have h2 : ∀ᵐ b : ℝ × ℝ, ∀ p ∈ planeKinks l, p ∉ planeImages z l b ∧ ¬∃ F : ℝ × ℝ → ℝ × ℝ,
      (∀ᶠ q in 𝓝[≠] p, raytraceOpt (singlePlaneO z (l.map (lens z))).reduced q.1 q.2 = some (F q)) ∧
      Tendsto F (𝓝[≠] p) (𝓝 b) := (ae_ball_iff (planeKinks l).countable_toSet).2 h1
  -- finitely many ways to take a member out
  have h3 : ∀ n : ℕ, ∀ᵐ b : ℝ × ℝ, ∀ pre post m p, l = pre ++ m :: post → m.cusp = some p → pre.length = n →
      ∃ c, raytraceOpt (singlePlaneO z ((pre ++ post).map (lens z))).reduced p.1 p.2 = some c ∧
        ¬m.onCut (c.1 - b.1, c.2 - b.2) := by
    intro n
    by_cases hex : ∃ pre post m p, l = pre ++ m :: post ∧ m.cusp = some p ∧ pre.length = n
    · obtain ⟨pre, post, m, p, he, hm, hn⟩ := hex
      obtain ⟨-, c, hc⟩ := hs _ _ _ _ he hm
      filter_upwards [onCut_null (hl m (by rw [he]; simp)) c] with b hb pre' post' m' p' he' hm' hn'
      rw [he] at he'
      obtain ⟨rfl, h5⟩ := List.append_inj he' (hn.trans hn'.symm)
      rw [List.cons.injEq] at h5
      obtain ⟨rfl, rfl⟩ := h5
      obtain rfl := Option.some.inj (hm.symm.trans hm')
      exact ⟨c, hc, hb⟩
    · exact Eventually.of_forall fun b pre post m p he hm hn => absurd ⟨pre, post, m, p, he, hm, hn⟩ hex
  filter_upwards [h2, ae_all_iff.2 h3] with b k1 k2
  exact ⟨fun pre post m p he hm => ⟨(hs _ _ _ _ he hm).1, k2 _ pre post m p he hm rfl⟩, k1⟩

/-- For almost every source no image is on a critical curve or at a kink. -/
theorem C143_almost_every_regular (z : ℝ) (l : List PlaneMember) (hl : ∀ m ∈ l, m.Valid) (hs : Separate z l) :
    ∀ᵐ b : ℝ × ℝ, Generic z l b ∧ ∃ J : ℝ × ℝ → M22 ℝ, (∀ p ∈ planeImages z l b, PlaneJacobian z l p (J p)) ∧
      ∀ p ∈ planeImages z l b, (J p).a00 * (J p).a11 - (J p).a01 * (J p).a10 ≠ 0 := by
  have hc := measure_eq_zero_iff_ae_notMem.1
    (null_pairs (critical_null (f := planeMap l 0) fun w hw => special_contDiffAt (b := 0) hl hw))
  filter_upwards [generic_ae z l hl hs, hc] with b hg hb
  obtain ⟨J, hJ⟩ := C143_jacobian_exists z l hl b hg
  refine ⟨hg, J, hJ, fun p hp h0 => hb ?_⟩
  obtain ⟨h1, h2⟩ := (plane_image hl hg ⟨p.1, p.2⟩).1 hp
  have h3 := h1
  rw [mem_specials, not_or] at h3
  obtain ⟨J', hJ', hd⟩ := plane_hasJac (z := z) (b := 0) hl h3.1 h3.2
  rw [(hJ p hp).unique hJ', hd] at h0
  refine ⟨⟨p.1, p.2⟩, ⟨h1, h0⟩, ?_⟩
  rw [planeMap, sub_eq_zero] at h2
  rw [planeMap, h2]
  exact sub_zero _

/-- So for almost every source the number of images is finite, and one more than the number of point masses and covering
spheres, up to an even number. -/
theorem C143_almost_every (z : ℝ) (l : List PlaneMember) (hl : ∀ m ∈ l, m.Valid) (hs : Separate z l)
    (hdet : (1 - (l.map kap).sum) ^ 2 ≠ (l.map gam).sum.1 ^ 2 + (l.map gam).sum.2 ^ 2) :
    ∀ᵐ b : ℝ × ℝ, (planeImages z l b).Finite ∧
      (planeImages z l b).ncard % 2 = (1 + (planeStars l).card + {p | CutCovers z l b p}.ncard) % 2 ∧
      (planeStars l).card + {p | CutCovers z l b p}.ncard ≤ (planeImages z l b).ncard + 1 := by
  filter_upwards [C143_almost_every_regular z l hl hs] with b hb
  obtain ⟨hg, J, hJ, hreg⟩ := hb
  obtain ⟨hfin, h⟩ := C143_parities z l hl b hg hdet hJ hreg
  have hsplit : (planeImages z l b).ncard =
      {p ∈ planeImages z l b | 0 < (J p).a00 * (J p).a11 - (J p).a01 * (J p).a10}.ncard +
      {p ∈ planeImages z l b | (J p).a00 * (J p).a11 - (J p).a01 * (J p).a10 < 0}.ncard := by
    rw [← Set.ncard_union_eq ?_ (hfin.subset fun p hp => hp.1) (hfin.subset fun p hp => hp.1)]
    · congr 1
      ext p
      refine ⟨fun hp => ?_, fun hp => hp.elim (fun h => h.1) fun h => h.1⟩
      exact (lt_or_gt_of_ne (hreg p hp)).elim (fun h => Or.inr ⟨hp, h⟩) fun h => Or.inl ⟨hp, h⟩
    · rw [Set.disjoint_left]
      exact fun p h1 h2 => lt_asymm h1.2 h2.2
  refine ⟨hfin, ?_, ?_⟩ <;> rw [hsplit] <;> split_ifs at h <;> omega

end Caustics
