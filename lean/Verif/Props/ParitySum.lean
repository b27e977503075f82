import Verif.Props.PlaneParity

/-!
C143: the parities of the images of a lens plane add up to a number that depends only on its singularities and on the
lens far away.
-/

namespace Caustics

open ComplexConjugate FieldLens Filter Topology PlaneMember

/-- `p` is the centre of a singular isothermal sphere or ellipsoid, and its cut covers the source `b`: the rest of the lens
maps `p` to a place whose offset from `b` is inside the cut. -/
def CutCovers (z : ℝ) (l : List PlaneMember) (b p : ℝ × ℝ) : Prop :=
  ∃ pre post m c, l = pre ++ m :: post ∧ m.cusp = some p ∧
    raytraceOpt (singlePlaneO z ((pre ++ post).map (lens z))).reduced p.1 p.2 = some c ∧
    m.inCut (c.1 - b.1, c.2 - b.2)

/-- The source `b` is in general position as far as the singularities of the plane go. At the centre of a singular
isothermal sphere or ellipsoid the rest of the lens is smooth and `b` is not on the edge of the cut, and at a kink there is
no image and `raytrace` does not tend to `b`. -/
structure Generic (z : ℝ) (l : List PlaneMember) (b : ℝ × ℝ) : Prop where
  cusp : ∀ pre post m p, l = pre ++ m :: post → m.cusp = some p → p ∉ planeKinks l ∧
    ∃ c, raytraceOpt (singlePlaneO z ((pre ++ post).map (lens z))).reduced p.1 p.2 = some c ∧
      ¬m.onCut (c.1 - b.1, c.2 - b.2)
  kink : ∀ p ∈ planeKinks l, p ∉ planeImages z l b ∧ ¬∃ F : ℝ × ℝ → ℝ × ℝ,
    (∀ᶠ q in 𝓝[≠] p, raytraceOpt (singlePlaneO z (l.map (lens z))).reduced q.1 q.2 = some (F q)) ∧
    Tendsto F (𝓝[≠] p) (𝓝 b)

section
variable {z : ℝ} {l : List PlaneMember} {b : ℝ × ℝ}

theorem off_special (p : ℝ × ℝ) : ∀ᶠ q in 𝓝[≠] p, q ∉ planePoles l ∧ q ∉ planeKinks l := by
  have hev : ∀ᶠ q in 𝓝 p, q ∉ (planePoles l ∪ planeKinks l).erase p :=
    (Finset.finite_toSet ((planePoles l ∪ planeKinks l).erase p)).isClosed.isOpen_compl.mem_nhds (by simp)
  filter_upwards [hev.filter_mono nhdsWithin_le_nhds, self_mem_nhdsWithin] with q hq hne
  rw [← not_or]
  exact fun h => hq (Finset.mem_erase.2 ⟨hne, Finset.mem_union.2 h⟩)

/-- What `raytrace` returns off the special points. -/
theorem plane_trace (hl : ∀ m ∈ l, m.Valid) {q : ℝ × ℝ} (h1 : q ∉ planePoles l) (h2 : q ∉ planeKinks l) :
    raytraceOpt (singlePlaneO z (l.map (lens z))).reduced q.1 q.2 =
      some ((planeMap l b ⟨q.1, q.2⟩).re + b.1, (planeMap l b ⟨q.1, q.2⟩).im + b.2) := by
  refine (plane_value z l hl q h2 _).2 ⟨h1, ?_⟩
  rw [planeMap, planeMap]
  exact Complex.ext (by simp) (by simp)

theorem continuous_mkC : Continuous fun q : ℝ × ℝ => (⟨q.1, q.2⟩ : ℂ) :=
  Complex.equivRealProdCLM.symm.continuous

theorem generic_kink (hl : ∀ m ∈ l, m.Valid) (hg : Generic z l b) {p : ℝ × ℝ} (hp : p ∈ planeKinks l)
    (hpole : p ∉ planePoles l) : planeMap l b ⟨p.1, p.2⟩ ≠ 0 := by
  intro h0
  refine (hg.kink p hp).2 ⟨fun q => ((planeMap l b ⟨q.1, q.2⟩).re + b.1, (planeMap l b ⟨q.1, q.2⟩).im + b.2), ?_, ?_⟩
  · filter_upwards [off_special p] with q hq
    exact plane_trace hl hq.1 hq.2
  · have hc : ContinuousAt (fun q : ℝ × ℝ => planeMap l b ⟨q.1, q.2⟩) p :=
      ContinuousAt.comp (f := fun q : ℝ × ℝ => (⟨q.1, q.2⟩ : ℂ)) (list_continuousAt (b := b) hl hpole)
        continuous_mkC.continuousAt
    have h1 : ContinuousAt (fun q : ℝ × ℝ => ((planeMap l b ⟨q.1, q.2⟩).re + b.1, (planeMap l b ⟨q.1, q.2⟩).im + b.2)) p :=
      ((Complex.continuous_re.continuousAt.comp hc).add continuousAt_const).prodMk
        ((Complex.continuous_im.continuousAt.comp hc).add continuousAt_const)
    have h2 := h1.tendsto.mono_left (nhdsWithin_le_nhds (s := {p}ᶜ))
    simp only [h0, Complex.zero_re, Complex.zero_im, zero_add] at h2
    exact h2

theorem plane_image (hl : ∀ m ∈ l, m.Valid) (hg : Generic z l b) (w : ℂ) :
    (w.re, w.im) ∈ planeImages z l b ↔ w ∉ specials l ∧ planeMap l b w = 0 := by
  rw [mem_specials, not_or]
  by_cases hk : (w.re, w.im) ∈ planeKinks l
  · exact ⟨fun h => absurd h (hg.kink _ hk).1, fun h => absurd hk h.1.2⟩
  · have := plane_value z l hl (w.re, w.im) hk b
    rw [planeImages, Set.mem_setOf_eq, this]
    exact ⟨fun h => ⟨⟨h.1, hk⟩, h.2⟩, fun h => ⟨h.1.1, h.2⟩⟩

theorem map_trace (hl : ∀ m ∈ l, m.Valid) {p c : ℝ × ℝ} (hk : p ∉ planeKinks l)
    (h : raytraceOpt (singlePlaneO z (l.map (lens z))).reduced p.1 p.2 = some c) :
    p ∉ planePoles l ∧ planeMap l b ⟨p.1, p.2⟩ = ⟨c.1 - b.1, c.2 - b.2⟩ := by
  obtain ⟨h1, h2⟩ := (plane_value z l hl p hk c).1 h
  refine ⟨h1, ?_⟩
  rw [planeMap, sub_eq_zero] at h2
  rw [planeMap, h2]
  exact Complex.ext rfl rfl

theorem mem_rest {pre post : List PlaneMember} {m m' : PlaneMember} (h : m' ∈ pre ++ post) : m' ∈ pre ++ m :: post := by
  rw [List.mem_append] at h ⊢
  rw [List.mem_cons]
  tauto

theorem planeKinks_rest {pre post : List PlaneMember} {m : PlaneMember} {p : ℝ × ℝ}
    (h : p ∉ planeKinks (pre ++ m :: post)) : p ∉ planeKinks (pre ++ post) := by
  rw [mem_planeKinks] at h ⊢
  rintro ⟨m', hm, hp⟩
  exact h ⟨m', mem_rest hm, hp⟩

/-- The singularities of the plane and what they count. -/
theorem plane_index (hl : ∀ m ∈ l, m.Valid) (hg : Generic z l b) {p : ℝ × ℝ} (hp : p ∈ planePoles l ∪ planeKinks l) :
    ((∀ᶠ w in 𝓝[≠] (⟨p.1, p.2⟩ : ℂ), planeMap l b w ≠ 0) ∧ ∃ k : ℤ, HasIndex (planeMap l b) ⟨p.1, p.2⟩ k ∧
      (p ∈ planeStars l → k = 1) ∧ (CutCovers z l b p → k = 1) ∧ (p ∉ planeStars l → ¬CutCovers z l b p → k = 0)) ∧
      ¬(p ∈ planeStars l ∧ CutCovers z l b p) := by
  have hdis : ¬(p ∈ planeStars l ∧ CutCovers z l b p) := by
    rintro ⟨h1, pre, post, m', c, h2, hc, h3, -⟩
    obtain ⟨hk, -⟩ := hg.cusp _ _ _ _ h2 hc
    obtain ⟨m, hm, hs⟩ := mem_planeStars.1 h1
    subst h2
    refine (map_trace (b := b) (fun m hm => hl m (mem_rest hm)) (planeKinks_rest hk) h3).1
      (mem_planePoles.2 ⟨m, ?_, star_pole hs⟩)
    rw [List.mem_append, List.mem_cons] at hm
    rw [List.mem_append]
    rcases hm with h | rfl | h
    · exact Or.inl h
    · exact absurd hs (cusp_not_star hc)
    · exact Or.inr h
  refine ⟨?_, hdis⟩
  by_cases h1 : p ∈ planeStars l
  · obtain ⟨h2, h3⟩ := index_star (b := b) hl h1
    exact ⟨h2, 1, h3, fun _ => rfl, fun _ => rfl, fun h => absurd h1 h⟩
  by_cases h2 : ∃ m ∈ l, m.cusp = some p
  · obtain ⟨m, hm, hcp⟩ := h2
    obtain ⟨pre, post, he⟩ := List.append_of_mem hm
    obtain ⟨hk, c, hc, hne⟩ := hg.cusp _ _ _ _ he hcp
    subst he
    obtain ⟨hpo, hn⟩ := map_trace (b := b) (fun m hm => hl m (mem_rest hm)) (planeKinks_rest hk) hc
    obtain ⟨h3, k, h4, h5, h6⟩ := index_cusp (b := b) hl hcp hpo (by rw [hn]; exact hne)
    rw [hn] at h5 h6
    refine ⟨h3, k, h4, fun h => absurd h h1, ?_, fun _ h7 => h6 fun h8 => h7 ⟨pre, post, m, c, rfl, hcp, hc, h8⟩⟩
    rintro ⟨pre', post', m', c', h7, hcp', h8, h9⟩
    -- there is only one singular member at `p`
    obtain ⟨hk', -⟩ := hg.cusp _ _ _ _ h7 hcp'
    obtain ⟨hpo', hn'⟩ := map_trace (b := b) (fun m hm => hl m (by rw [h7]; exact mem_rest hm))
      (planeKinks_rest (h7 ▸ hk')) h8
    have hmm : m' = m := by
      by_contra hmm
      refine hpo' (mem_planePoles.2 ⟨m, ?_, cusp_pole hcp⟩)
      have : m ∈ pre' ++ m' :: post' := by rw [← h7]; simp
      rw [List.mem_append, List.mem_cons] at this
      rw [List.mem_append]
      rcases this with h | h | h
      · exact Or.inl h
      · exact absurd h.symm hmm
      · exact Or.inr h
    subst hmm
    have hmap : planeMap (pre ++ post) b ⟨p.1, p.2⟩ = planeMap (pre' ++ post') b ⟨p.1, p.2⟩ := by
      have e1 : ((pre ++ m' :: post).map fun m => m.cd ⟨p.1, p.2⟩).sum =
          ((pre' ++ m' :: post').map fun m => m.cd ⟨p.1, p.2⟩).sum := by rw [h7]
      simp only [List.map_append, List.map_cons, List.sum_append, List.sum_cons] at e1
      rw [planeMap, planeMap]
      simp only [List.map_append, List.sum_append]
      linear_combination -e1
    rw [hmap, hn'] at hn
    refine h5 ?_
    rw [Complex.mk.injEq] at hn
    rw [← hn.1, ← hn.2]
    exact h9
  · have hpole : p ∉ planePoles l := by
      rw [mem_planePoles]
      rintro ⟨m, hm, hmp⟩
      cases m with
      | field m => exact h1 (mem_planeStars.2 ⟨_, hm, hmp⟩)
      | sis x0 y0 R => exact h2 ⟨_, hm, hmp⟩
      | cone L x0 y0 a => exact h2 ⟨_, hm, hmp⟩
      | spike L x0 y0 a => exact h1 (mem_planeStars.2 ⟨_, hm, hmp⟩)
      | other => simp [pole] at hmp
    have hk : p ∈ planeKinks l := (Finset.mem_union.1 hp).resolve_left hpole
    obtain ⟨h3, h4⟩ := index_kink (b := b) hl hpole (generic_kink hl hg hk hpole)
    refine ⟨h3, 0, h4, fun h => absurd h h1, ?_, fun _ _ => rfl⟩
    rintro ⟨pre, post, m, c, h5, h6, -⟩
    exact absurd ⟨m, by rw [h5]; simp, h6⟩ h2

/-- The Jacobian. -/
theorem plane_hasJac (hl : ∀ m ∈ l, m.Valid) {p : ℝ × ℝ} (h1 : p ∉ planePoles l) (h2 : p ∉ planeKinks l) :
    ∃ J : M22 ℝ, PlaneJacobian z l p J ∧ J.a00 * J.a11 - J.a01 * J.a10 = planeDet (planeMap l b) ⟨p.1, p.2⟩ := by
  have hd : HasFDerivAt (planeMap l b) (fderiv ℝ (planeMap l b) ⟨p.1, p.2⟩) (⟨p.1, p.2⟩ : ℂ) :=
    ((list_contDiffAt (b := b) hl h2 h1).differentiableAt one_ne_zero).hasFDerivAt
  set D := fderiv ℝ (planeMap l b) ⟨p.1, p.2⟩ with hD
  have hF : HasGrad (fun x y => planeMap l b ⟨x, y⟩) (D 1) (D Complex.I) p.1 p.2 := by
    have h3 : HasFDerivAt (fun q : ℝ × ℝ => planeMap l b ⟨q.1, q.2⟩)
        (D.comp (Complex.equivRealProdCLM.symm : ℝ × ℝ →L[ℝ] ℂ)) p :=
      HasFDerivAt.comp (f := fun q : ℝ × ℝ => (⟨q.1, q.2⟩ : ℂ)) p hd Complex.equivRealProdCLM.symm.hasFDerivAt
    refine h3.congr_fderiv (ContinuousLinearMap.ext fun q => ?_)
    have e : (Complex.equivRealProdCLM.symm q : ℂ) = q.1 • (1 : ℂ) + q.2 • Complex.I := by
      apply Complex.ext <;> simp
    simp only [ContinuousLinearMap.comp_apply, ContinuousLinearEquiv.coe_coe, e, map_add, map_smul]
    rfl
  refine ⟨⟨(D 1).re, (D Complex.I).re, (D 1).im, (D Complex.I).im⟩,
    ⟨fun x y => ((planeMap l b ⟨x, y⟩).re + b.1, (planeMap l b ⟨x, y⟩).im + b.2), ?_, ?_, ?_⟩, ?_⟩
  · have hev : ∀ᶠ q in 𝓝 p, q ∉ planePoles l ∪ planeKinks l :=
      (Finset.finite_toSet (planePoles l ∪ planeKinks l)).isClosed.isOpen_compl.mem_nhds (by simp [h1, h2])
    filter_upwards [hev] with q hq
    rw [Finset.mem_union, not_or] at hq
    exact plane_trace hl hq.1 hq.2
  · have := (hF.clm Complex.reCLM).add (HasGrad.const b.1 p.1 p.2)
    simpa using this
  · have := (hF.clm Complex.imCLM).add (HasGrad.const b.2 p.1 p.2)
    simpa using this
  · rw [planeDet, ← hD, Complex.mul_im, Complex.conj_re, Complex.conj_im]
    ring

theorem PlaneJacobian.unique {p : ℝ × ℝ} {J J' : M22 ℝ} (h : PlaneJacobian z l p J) (h' : PlaneJacobian z l p J') :
    J = J' := by
  obtain ⟨f, hf, h1, h2⟩ := h
  obtain ⟨f', hf', h1', h2'⟩ := h'
  have e : ∀ᶠ q : ℝ × ℝ in 𝓝 (p.1, p.2), f' q.1 q.2 = f q.1 q.2 := by
    filter_upwards [hf, hf'] with q k1 k2
    exact Option.some.inj (k2.symm.trans k1)
  have u1 := (h1.congr_near (e.mono fun q hq => congrArg Prod.fst hq)).unique h1'
  have u2 := (h2.congr_near (e.mono fun q hq => congrArg Prod.snd hq)).unique h2'
  exact M22.ext u1.1 u1.2 u2.1 u2.2

/-- Far away. -/
theorem plane_far (hl : ∀ m ∈ l, m.Valid)
    (hdet : (1 - (l.map kap).sum) ^ 2 ≠ (l.map gam).sum.1 ^ 2 + (l.map gam).sum.2 ^ 2) :
    ‖((1 - (l.map kap).sum : ℝ) : ℂ)‖ ≠ ‖-(⟨(l.map gam).sum.1, (l.map gam).sum.2⟩ : ℂ)‖ ∧
    (‖-(⟨(l.map gam).sum.1, (l.map gam).sum.2⟩ : ℂ)‖ < ‖((1 - (l.map kap).sum : ℝ) : ℂ)‖ ↔
      (l.map gam).sum.1 ^ 2 + (l.map gam).sum.2 ^ 2 < (1 - (l.map kap).sum) ^ 2) ∧
    ∃ ρ : ℝ, ∀ w : ℂ, ρ ≤ ‖w‖ →
      ‖planeMap l b w - (((1 - (l.map kap).sum : ℝ) : ℂ) * w + -(⟨(l.map gam).sum.1, (l.map gam).sum.2⟩ : ℂ) * conj w)‖ <
        ‖((1 - (l.map kap).sum : ℝ) : ℂ) * w + -(⟨(l.map gam).sum.1, (l.map gam).sum.2⟩ : ℂ) * conj w‖ := by
  set A := ((1 - (l.map kap).sum : ℝ) : ℂ) with hA
  set B := (⟨(l.map gam).sum.1, (l.map gam).sum.2⟩ : ℂ) with hB
  have hA2 : ‖A‖ ^ 2 = (1 - (l.map kap).sum) ^ 2 := by rw [hA, Complex.norm_real, Real.norm_eq_abs, sq_abs]
  have hB2 : ‖-B‖ ^ 2 = (l.map gam).sum.1 ^ 2 + (l.map gam).sum.2 ^ 2 := by
    rw [norm_neg, hB, ← Complex.normSq_eq_norm_sq, Complex.normSq_apply]
    ring
  have hne : ‖A‖ ≠ ‖-B‖ := fun h => hdet (by rw [← hA2, ← hB2, h])
  refine ⟨hne, ?_, ?_⟩
  · rw [← hA2, ← hB2]
    exact (pow_lt_pow_iff_left₀ (norm_nonneg _) (norm_nonneg _) two_ne_zero).symm
  · set c := |‖A‖ - ‖-B‖| with hc
    have hc0 : 0 < c := abs_pos.2 (sub_ne_zero.2 hne)
    obtain ⟨ρ, M, hM⟩ := list_far hl (half_pos hc0)
    refine ⟨max ρ ((|M| + ‖(⟨b.1, b.2⟩ : ℂ)‖ + 1) / (c / 2)), fun w hw => ?_⟩
    have k1 := hM w ((le_max_left _ _).trans hw)
    have k2 : |M| + ‖(⟨b.1, b.2⟩ : ℂ)‖ + 1 ≤ ‖w‖ * (c / 2) := by
      rw [← div_le_iff₀ (by positivity)]
      exact (le_max_right _ _).trans hw
    have k3 : c * ‖w‖ ≤ ‖A * w + -B * conj w‖ := by
      have h1 : ‖A * w‖ = ‖A‖ * ‖w‖ := norm_mul _ _
      have h2 : ‖-B * conj w‖ = ‖-B‖ * ‖w‖ := by rw [norm_mul, Complex.norm_conj]
      have h3 := abs_norm_sub_norm_le (A * w) (-(-B * conj w))
      rw [sub_neg_eq_add, norm_neg, h1, h2, ← sub_mul, abs_mul, abs_norm] at h3
      exact h3
    have e : planeMap l b w - (A * w + -B * conj w) =
        -((l.map fun m => m.cd w).sum - (((l.map kap).sum : ℂ) * w + B * conj w)) - ⟨b.1, b.2⟩ := by
      rw [planeMap, hA]
      push_cast
      ring
    rw [e]
    refine (norm_sub_le _ _).trans_lt ?_
    rw [norm_neg]
    have := le_abs_self M
    refine lt_of_lt_of_le ?_ k3
    nlinarith

end

/-- The Jacobian of `raytrace` exists at every position that is not special. -/
theorem C143_jacobian_exists (z : ℝ) (l : List PlaneMember) (hl : ∀ m ∈ l, m.Valid) (b : ℝ × ℝ) (hg : Generic z l b) :
    ∃ J : ℝ × ℝ → M22 ℝ, ∀ p ∈ planeImages z l b, PlaneJacobian z l p (J p) := by
  have h : ∀ p, ∃ J : M22 ℝ, p ∈ planeImages z l b → PlaneJacobian z l p J := by
    intro p
    by_cases hp : p ∈ planeImages z l b
    · have := ((plane_image hl hg ⟨p.1, p.2⟩).1 hp).1
      rw [mem_specials, not_or] at this
      obtain ⟨J, hJ, -⟩ := plane_hasJac (z := z) (b := b) hl this.1 this.2
      exact ⟨J, fun _ => hJ⟩
    · exact ⟨⟨0, 0, 0, 0⟩, fun h => absurd h hp⟩
  choose J hJ using h
  exact ⟨J, hJ⟩

/-- **The parities add up.** A plane of any number of point masses, sheets, shears, singular isothermal spheres and
ellipsoids, steep power laws and lenses without such singularities, and a source none of whose images is on a critical
curve. There are finitely many images, and the number of those of positive parity less the number of those of negative
parity is `1` if the lens far away does not invert, `-1` if it does, less the number of places with point masses or steep
power laws and less the number of singular isothermal spheres and ellipsoids whose cut covers the source. -/
theorem C143_parities (z : ℝ) (l : List PlaneMember) (hl : ∀ m ∈ l, m.Valid) (b : ℝ × ℝ) (hg : Generic z l b)
    (hdet : (1 - (l.map kap).sum) ^ 2 ≠ (l.map gam).sum.1 ^ 2 + (l.map gam).sum.2 ^ 2)
    {J : ℝ × ℝ → M22 ℝ} (hJ : ∀ p ∈ planeImages z l b, PlaneJacobian z l p (J p))
    (hreg : ∀ p ∈ planeImages z l b, (J p).a00 * (J p).a11 - (J p).a01 * (J p).a10 ≠ 0) :
    (planeImages z l b).Finite ∧
    ({p ∈ planeImages z l b | 0 < (J p).a00 * (J p).a11 - (J p).a01 * (J p).a10}.ncard : ℤ) -
      {p ∈ planeImages z l b | (J p).a00 * (J p).a11 - (J p).a01 * (J p).a10 < 0}.ncard =
      (if (l.map gam).sum.1 ^ 2 + (l.map gam).sum.2 ^ 2 < (1 - (l.map kap).sum) ^ 2 then 1 else -1) -
        (planeStars l).card - {p | CutCovers z l b p}.ncard := by
  classical
  obtain ⟨hAB, hsgn, ρ, hfar⟩ := plane_far (b := b) hl hdet
  have hsp : ∀ w ∈ specials l, (w.re, w.im) ∈ planePoles l ∪ planeKinks l := fun w hw =>
    Finset.mem_union.2 (mem_specials.1 hw)
  have hk : ∀ w : ℂ, ∃ k : ℤ, w ∈ specials l → HasIndex (planeMap l b) w k ∧
      ((w.re, w.im) ∈ planeStars l → k = 1) ∧ (CutCovers z l b (w.re, w.im) → k = 1) ∧
      ((w.re, w.im) ∉ planeStars l → ¬CutCovers z l b (w.re, w.im) → k = 0) := by
    intro w
    by_cases hw : w ∈ specials l
    · obtain ⟨k, h⟩ := (plane_index hl hg (hsp w hw)).1.2
      exact ⟨k, fun _ => h⟩
    · exact ⟨0, fun h => absurd h hw⟩
  choose k hk using hk
  have hdetJ : ∀ p ∈ planeImages z l b, (J p).a00 * (J p).a11 - (J p).a01 * (J p).a10 =
      planeDet (planeMap l b) ⟨p.1, p.2⟩ := by
    intro p hp
    have := ((plane_image hl hg ⟨p.1, p.2⟩).1 hp).1
    rw [mem_specials, not_or] at this
    obtain ⟨J', hJ', hd⟩ := plane_hasJac (z := z) (b := b) hl this.1 this.2
    rw [(hJ p hp).unique hJ', hd]
  obtain ⟨hfin, hsum⟩ := degree_count (Z := specials l) (k := k) (fun w hw => special_contDiffAt (b := b) hl hw)
    (fun w hw => (plane_index hl hg (hsp w hw)).1.1) (fun w hw => (hk w hw).1)
    (fun w hw h0 => by
      have hp := (plane_image hl hg w).2 ⟨hw, h0⟩
      have := hreg _ hp
      rw [hdetJ _ hp] at this
      exact this) hAB hfar
  -- back to pairs
  let e : ℝ × ℝ ↪ ℂ := ⟨fun c : ℝ × ℝ => (⟨c.1, c.2⟩ : ℂ), mkC_injective⟩
  have himg : planeImages z l b = e ⁻¹' {w | w ∉ specials l ∧ planeMap l b w = 0} :=
    Set.ext fun p => plane_image hl hg ⟨p.1, p.2⟩
  have hfin' : (planeImages z l b).Finite := by
    rw [himg]
    exact hfin.preimage e.injective.injOn
  refine ⟨hfin', ?_⟩
  have hT : hfin.toFinset = hfin'.toFinset.map e := by
    ext w
    rw [Finset.mem_map, Set.Finite.mem_toFinset]
    constructor
    · intro hw
      exact ⟨(w.re, w.im), (Set.Finite.mem_toFinset _).2 ((plane_image hl hg w).2 hw), rfl⟩
    · rintro ⟨p, hp, rfl⟩
      exact (plane_image hl hg ⟨p.1, p.2⟩).1 ((Set.Finite.mem_toFinset _).1 hp)
  rw [hT, Finset.sum_map] at hsum
  have hs1 : ∑ p ∈ hfin'.toFinset, (SignType.sign (planeDet (planeMap l b) (e p)) : ℤ) =
      ({p ∈ planeImages z l b | 0 < (J p).a00 * (J p).a11 - (J p).a01 * (J p).a10}.ncard : ℤ) -
      {p ∈ planeImages z l b | (J p).a00 * (J p).a11 - (J p).a01 * (J p).a10 < 0}.ncard := by
    have h1 : {p ∈ planeImages z l b | 0 < (J p).a00 * (J p).a11 - (J p).a01 * (J p).a10} =
        (hfin'.toFinset.filter fun p => 0 < (J p).a00 * (J p).a11 - (J p).a01 * (J p).a10 : Finset (ℝ × ℝ)) := by
      ext p
      simp
    have h2 : {p ∈ planeImages z l b | (J p).a00 * (J p).a11 - (J p).a01 * (J p).a10 < 0} =
        (hfin'.toFinset.filter fun p => (J p).a00 * (J p).a11 - (J p).a01 * (J p).a10 < 0 : Finset (ℝ × ℝ)) := by
      ext p
      simp
    rw [h1, h2, Set.ncard_coe_finset, Set.ncard_coe_finset, Finset.card_filter, Finset.card_filter, Nat.cast_sum,
      Nat.cast_sum, ← Finset.sum_sub_distrib]
    refine Finset.sum_congr rfl fun p hp => ?_
    have hp' := (Set.Finite.mem_toFinset _).1 hp
    have hd := hdetJ p hp'
    change (SignType.sign (planeDet (planeMap l b) ⟨p.1, p.2⟩) : ℤ) = _
    rw [← hd]
    rcases lt_or_gt_of_ne (hreg p hp') with h | h
    · rw [if_neg (not_lt.2 h.le), if_pos h, sign_neg h]
      rfl
    · rw [if_pos h, if_neg (not_lt.2 h.le), sign_pos h]
      rfl
  have hcov : {p | CutCovers z l b p} = ((planePoles l).filter (CutCovers z l b) : Finset (ℝ × ℝ)) := by
    ext p
    simp only [Set.mem_setOf_eq, Finset.coe_filter]
    refine ⟨fun h => ⟨?_, h⟩, fun h => h.2⟩
    obtain ⟨pre, post, m, c, h1, h2, -⟩ := h
    exact mem_planePoles.2 ⟨m, by rw [h1]; simp, cusp_pole h2⟩
  have hs2 : ∑ w ∈ specials l, k w = (planeStars l).card + {p | CutCovers z l b p}.ncard := by
    have hst : planeStars l ⊆ planePoles l ∪ planeKinks l := fun p hp => by
      obtain ⟨m, hm, hs⟩ := mem_planeStars.1 hp
      exact Finset.mem_union_left _ (mem_planePoles.2 ⟨m, hm, star_pole hs⟩)
    have hco : (planePoles l).filter (CutCovers z l b) ⊆ planePoles l ∪ planeKinks l :=
      (Finset.filter_subset _ _).trans Finset.subset_union_left
    rw [hcov, Set.ncard_coe_finset, specials, Finset.sum_map]
    have : ∀ p ∈ planePoles l ∪ planeKinks l, k ⟨p.1, p.2⟩ = (if p ∈ planeStars l then 1 else 0) +
        (if p ∈ (planePoles l).filter (CutCovers z l b) then 1 else 0) := by
      intro p hp
      obtain ⟨h1, h2, h3, h4⟩ := hk ⟨p.1, p.2⟩ (mem_specials.2 (Finset.mem_union.1 hp))
      have h5 := (plane_index hl hg hp).2
      have h6 : p ∈ (planePoles l).filter (CutCovers z l b) ↔ CutCovers z l b p := by
        rw [← Finset.mem_coe, ← hcov]
        rfl
      simp only [h6]
      by_cases h7 : p ∈ planeStars l
      · rw [h2 h7, if_pos h7, if_neg fun h => h5 ⟨h7, h⟩, add_zero]
      · by_cases h8 : CutCovers z l b p
        · rw [h3 h8, if_neg h7, if_pos h8, zero_add]
        · rw [h4 h7 h8, if_neg h7, if_neg h8, add_zero]
    refine (Finset.sum_congr rfl this).trans ?_
    rw [Finset.sum_add_distrib, Finset.sum_ite_mem, Finset.sum_ite_mem, Finset.inter_eq_right.2 hst,
      Finset.inter_eq_right.2 hco]
    simp
  rw [hs1, hs2] at hsum
  have e1 : (if ‖-(⟨(l.map gam).sum.1, (l.map gam).sum.2⟩ : ℂ)‖ < ‖((1 - (l.map kap).sum : ℝ) : ℂ)‖ then (1 : ℤ) else -1) =
      if (l.map gam).sum.1 ^ 2 + (l.map gam).sum.2 ^ 2 < (1 - (l.map kap).sum) ^ 2 then 1 else -1 := by
    simp only [hsgn]
  rw [e1] at hsum
  linarith

end Caustics
