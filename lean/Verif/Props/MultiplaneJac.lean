import Verif.Lemmas.MultiplaneJac
import Verif.Props.WeakLens
import Verif.Model.Jacobian

/-! # C109: the Jacobian of a multiplane lens -/

namespace Caustics

/-- The derivative of `raytrace` applied to a small displacement `(u, v)` of the image is `raytrace` of the same planes with
every lens replaced by the derivative of its deflection at the point where the ray meets it. -/
theorem C109_linearised (e : MPEnv ℝ) (zs : ℝ) (hr : e.radToArcsec ≠ 0) (lenses : List (MPlane ℝ)) (hne : lenses ≠ [])
    (hsort : SortedByZ lenses) (hb : Between e.dist lenses zs) (x y : ℝ) (beta : ℝ → ℝ × ℝ)
    (hray : IsRay e.dist lenses x y beta) (U : MPlane ℝ → ℝ × ℝ →L[ℝ] ℝ × ℝ)
    (hU : ∀ l ∈ lenses, HasFDerivAt (fun p : ℝ × ℝ => l.alpha p.1 p.2) (U l) (beta l.z)) :
    ∃ D : ℝ × ℝ →L[ℝ] ℝ × ℝ,
      HasFDerivAt (fun p : ℝ × ℝ => (mpRaytrace e zs lenses p.1 p.2).getD 0) D (x, y) ∧
      ∀ u v, mpRaytrace e zs (lenses.map (linPlane U)) u v = some (D (u, v)) := by
  have hpos : ∀ l ∈ lenses, 0 < l.z := fun l hl => (hb.1 l hl).1
  choose B hB using fun x y => ray_exists e.dist lenses x y
  have hU' : ∀ l ∈ lenses, HasFDerivAt (fun p : ℝ × ℝ => l.alpha p.1 p.2) (U l) (B x y l.z) := by
    intro l hl
    rw [ray_unique e.dist lenses hpos x y (B x y) beta (hB x y) hray l.z (hpos l hl)]
    exact hU l hl
  obtain ⟨D, hD, hDv⟩ := ray_hasFDerivAt e.dist lenses hpos B hB x y U hU' _ zs hb.2.1 (Nat.lt_succ_self _)
  refine ⟨D, hD.congr_of_eventuallyEq (Filter.Eventually.of_forall fun p => ?_), fun u v => ?_⟩
  · simp only [C16_lens_equation e zs hr lenses hne hsort hb p.1 p.2 _ (hB p.1 p.2), Option.getD_some]
  · obtain ⟨b, hbr⟩ := ray_exists e.dist (lenses.map (linPlane U)) u v
    have hs' : SortedByZ (lenses.map (linPlane U)) := by
      unfold SortedByZ
      rw [List.pairwise_map]
      exact hsort
    have hb' : Between e.dist (lenses.map (linPlane U)) zs := by
      refine ⟨fun l hl => ?_, hb.2⟩
      obtain ⟨m, hm, rfl⟩ := List.mem_map.1 hl
      exact hb.1 m hm
    rw [C16_lens_equation e zs hr _ (by simpa using hne) hs' hb' u v b hbr, hDv u v b hbr]

/-! ### Two planes -/

/-- Two lens planes: the convergence (`effective_convergence_div`) is the sum of the two convergences less a multiple of
`κ₁κ₂ + γ₁·γ₂`, and the rotation (`effective_convergence_curl`) is that multiple of the cross product of the two shears.  The
convergence and shear of the second lens are taken where the deflected ray meets it. -/
theorem C109_two_planes (e : MPEnv ℝ) (zs : ℝ) (hr : e.radToArcsec ≠ 0) (hd : GrowingDist e.dist) (l m : ThinLensFn ℝ)
    (h1 : 0 < l.z) (h12 : l.z < m.z) (h2 : m.z < zs) (x y kl gl1 gl2 km gm1 gm2 : ℝ)
    (hl : HasJac l.reduced (kl + gl1) gl2 gl2 (kl - gl1) x y)
    (hm : let w := (e.dist m.z - e.dist l.z) * e.dist zs / (e.dist m.z * (e.dist zs - e.dist l.z))
      HasJac m.reduced (km + gm1) gm2 gm2 (km - gm1) (x - w * (l.reduced x y).1) (y - w * (l.reduced x y).2)) :
    let w := (e.dist m.z - e.dist l.z) * e.dist zs / (e.dist m.z * (e.dist zs - e.dist l.z))
    ∃ J : M22 ℝ, HasJac (fun x y => (mpEffectiveDeflection e zs ([l, m].map (ThinLensFn.plane e zs)) x y).getD 0)
        J.a00 J.a01 J.a10 J.a11 x y ∧
      effectiveDiv J = kl + km - w * (km * kl + (gm1 * gl1 + gm2 * gl2)) ∧
      effectiveCurl J = w * (gm1 * gl2 - gm2 * gl1) := by
  intro w
  have hz1 : 1 + zs ≠ 0 := by linarith
  have hb : ∀ k ∈ [l, m], 0 < k.z ∧ k.z < zs := by
    intro k hk
    simp only [List.mem_cons, List.not_mem_nil, or_false] at hk
    rcases hk with rfl | rfl
    · exact ⟨h1, h12.trans h2⟩
    · exact ⟨h1.trans h12, h2⟩
  have hs := planes_sorted e zs [l, m] (by simpa using h12.le)
  have hbt := planes_between e zs hd (by linarith) _ hb
  have hw : rayWeight e.dist zs l.z m.z = w := rfl
  have w1 := rayWeight_source hd h1 (h12.trans h2)
  have w2 := rayWeight_source hd (h1.trans h12) h2
  have val : ∀ x y, mpEffectiveDeflection e zs ([l, m].map (ThinLensFn.plane e zs)) x y =
      some (l.reduced x y + m.reduced (x - w * (l.reduced x y).1) (y - w * (l.reduced x y).2)) := by
    intro x y
    obtain ⟨beta, hray⟩ := ray_exists e.dist ([l, m].map (ThinLensFn.plane e zs)) x y
    rw [C16_effective_deflection e zs hr _ (by simp) hs hbt x y beta hray]
    have e1 := isRay_thin e zs hz1 _ x y beta hray h1
    have e2 := isRay_thin e zs hz1 _ x y beta hray (h1.trans h12)
    have e3 := isRay_thin e zs hz1 _ x y beta hray (show 0 < zs by linarith)
    simp only [List.filter_cons, List.filter_nil, lt_irrefl, decide_false, Bool.false_eq_true, if_false, not_lt.2 h12.le,
      List.map_nil, List.sum_nil, sub_zero] at e1
    simp only [List.filter_cons, List.filter_nil, lt_irrefl, decide_false, Bool.false_eq_true, if_false, h12, decide_true,
      if_true, List.map_nil, List.sum_nil, List.map_cons, List.sum_cons, add_zero, e1, hw] at e2
    simp only [List.filter_cons, List.filter_nil, h12.trans h2, h2, decide_true,
      if_true, List.map_nil, List.sum_nil, List.map_cons, List.sum_cons, add_zero, e1, e2, w1, w2, one_smul] at e3
    rw [e3]
    refine congrArg some (Prod.ext ?_ ?_)
    · simp only [Prod.fst_sub, Prod.snd_sub, Prod.fst_add, Prod.smul_fst, Prod.smul_snd, smul_eq_mul]; ring
    · simp only [Prod.fst_sub, Prod.snd_sub, Prod.snd_add, Prod.smul_fst, Prod.smul_snd, smul_eq_mul]; ring
  have fl := hasJac_iff.1 hl
  have fm := hasJac_iff.1 hm
  have inner : HasFDerivAt (fun p : ℝ × ℝ => p - w • l.reduced p.1 p.2)
      (ContinuousLinearMap.id ℝ (ℝ × ℝ) - w • matLin (kl + gl1) gl2 gl2 (kl - gl1)) (x, y) :=
    (hasFDerivAt_id ((x, y) : ℝ × ℝ)).sub (fl.const_smul w)
  have outer : HasFDerivAt (fun p : ℝ × ℝ => m.reduced (p - w • l.reduced p.1 p.2).1 (p - w • l.reduced p.1 p.2).2)
      ((matLin (km + gm1) gm2 gm2 (km - gm1)).comp
        (ContinuousLinearMap.id ℝ (ℝ × ℝ) - w • matLin (kl + gl1) gl2 gl2 (kl - gl1))) (x, y) :=
    HasFDerivAt.comp (g := fun q : ℝ × ℝ => m.reduced q.1 q.2) (f := fun p : ℝ × ℝ => p - w • l.reduced p.1 p.2) (x, y)
      fm inner
  have tot := fl.add outer
  set D := matLin (kl + gl1) gl2 gl2 (kl - gl1) + (matLin (km + gm1) gm2 gm2 (km - gm1)).comp
        (ContinuousLinearMap.id ℝ (ℝ × ℝ) - w • matLin (kl + gl1) gl2 gl2 (kl - gl1)) with hD
  refine ⟨⟨(D (1, 0)).1, (D (0, 1)).1, (D (1, 0)).2, (D (0, 1)).2⟩, ?_, ?_, ?_⟩
  · refine hasJac_of_fderiv (tot.congr_of_eventuallyEq (Filter.Eventually.of_forall fun p => ?_))
    simp only [val, Option.getD_some]
    rfl
  · simp only [effectiveDiv, hD, add_apply, ContinuousLinearMap.comp_apply, sub_apply, smul_apply, matLin_apply,
      ContinuousLinearMap.id_apply, Prod.smul_mk, Prod.mk_sub_mk, Prod.mk_add_mk, smul_eq_mul]
    ring
  · simp only [effectiveCurl, hD, add_apply, ContinuousLinearMap.comp_apply, sub_apply, smul_apply, matLin_apply,
      ContinuousLinearMap.id_apply, Prod.smul_mk, Prod.mk_sub_mk, Prod.mk_add_mk, smul_eq_mul]
    ring

/-! ### No rotation when all shears are aligned -/

/-- If the shears of all lenses, where the ray meets them, lie along one axis (the Jacobians are combinations of the identity
and one symmetric matrix) the image is not rotated, however many planes there are. -/
theorem C109_no_rotation (e : MPEnv ℝ) (zs : ℝ) (hr : e.radToArcsec ≠ 0) (lenses : List (MPlane ℝ)) (hne : lenses ≠ [])
    (hsort : SortedByZ lenses) (hb : Between e.dist lenses zs) (x y : ℝ) (beta : ℝ → ℝ × ℝ)
    (hray : IsRay e.dist lenses x y beta) (g1 g2 : ℝ) (a c : MPlane ℝ → ℝ)
    (hU : ∀ l ∈ lenses, HasJac l.alpha (a l + c l * g1) (c l * g2) (c l * g2) (a l - c l * g1) (beta l.z).1 (beta l.z).2) :
    ∃ J : M22 ℝ, HasJac (fun x y => (mpEffectiveDeflection e zs lenses x y).getD 0) J.a00 J.a01 J.a10 J.a11 x y ∧
      effectiveCurl J = 0 := by
  have hpos : ∀ l ∈ lenses, 0 < l.z := fun l hl => (hb.1 l hl).1
  set U : MPlane ℝ → ℝ × ℝ →L[ℝ] ℝ × ℝ := fun l => matLin (a l + c l * g1) (c l * g2) (c l * g2) (a l - c l * g1) with hUdef
  obtain ⟨D, hD, hDv⟩ := C109_linearised e zs hr lenses hne hsort hb x y beta hray U fun l hl => hasJac_iff.1 (hU l hl)
  -- the linearised ray, seen through the components of the matrix
  have key : ∀ b0 b1 : ℝ → ℝ × ℝ, IsRay e.dist (lenses.map (linPlane U)) 1 0 b0 →
      IsRay e.dist (lenses.map (linPlane U)) 0 1 b1 → ∀ n : ℕ, ∀ z, 0 < z →
      (lenses.filter fun l => l.z < z).length < n →
      ∃ p q : ℝ, b0 z = (p + q * g1, q * g2) ∧ b1 z = (q * g2, p - q * g1) := by
    intro b0 b1 h0 h1 n
    induction n with
    | zero => intro z _ hz; omega
    | succ n ih =>
      intro z hz hlen
      have hsum : ∀ L : List (MPlane ℝ), (∀ l ∈ L, l ∈ lenses.filter fun l => l.z < z) → ∃ p q : ℝ,
          (L.map fun l => ((e.dist z - e.dist l.z) / e.dist z) • U l (b0 l.z)).sum = (p + q * g1, q * g2) ∧
          (L.map fun l => ((e.dist z - e.dist l.z) / e.dist z) • U l (b1 l.z)).sum = (q * g2, p - q * g1) := by
        intro L
        induction L with
        | nil => exact fun _ => ⟨0, 0, by simp; rfl, by simp; rfl⟩
        | cons l L ihL =>
          intro hL
          obtain ⟨p, q, hp, hq⟩ := ihL fun k hk => hL k (by simp [hk])
          have hl := List.mem_filter.1 (hL l (by simp))
          have hlt : l.z < z := by simpa using hl.2
          obtain ⟨p', q', hp', hq'⟩ := ih l.z (hpos l hl.1)
            (lt_of_lt_of_le (filter_lt_length MPlane.z lenses hl.1 hlt) (Nat.lt_succ_iff.1 hlen))
          refine ⟨p + (e.dist z - e.dist l.z) / e.dist z * (a l * p' + c l * q' * (g1 ^ 2 + g2 ^ 2)),
            q + (e.dist z - e.dist l.z) / e.dist z * (a l * q' + c l * p'), ?_, ?_⟩
          · rw [List.map_cons, List.sum_cons, hp]
            simp only [hp', hUdef, matLin_apply, Prod.smul_mk, Prod.mk_add_mk, smul_eq_mul,
              Prod.mk.injEq]
            constructor <;> ring
          · rw [List.map_cons, List.sum_cons, hq]
            simp only [hq', hUdef, matLin_apply, Prod.smul_mk, Prod.mk_add_mk, smul_eq_mul,
              Prod.mk.injEq]
            constructor <;> ring
      obtain ⟨p, q, hp, hq⟩ := hsum _ fun l hl => hl
      refine ⟨1 - p, -q, ?_, ?_⟩
      · rw [isRay_vec h0 hz, List.filter_map, List.map_map]
        refine Eq.trans (congrArg (fun t => ((1, 0) : ℝ × ℝ) - t) hp) ?_
        simp only [Prod.mk_sub_mk, Prod.mk.injEq]
        constructor <;> ring
      · rw [isRay_vec h1 hz, List.filter_map, List.map_map]
        refine Eq.trans (congrArg (fun t => ((0, 1) : ℝ × ℝ) - t) hq) ?_
        simp only [Prod.mk_sub_mk, Prod.mk.injEq]
        constructor <;> ring
  have hs' : SortedByZ (lenses.map (linPlane U)) := by
    unfold SortedByZ
    rw [List.pairwise_map]
    exact hsort
  have hb' : Between e.dist (lenses.map (linPlane U)) zs := by
    refine ⟨fun l hl => ?_, hb.2⟩
    obtain ⟨m, hm, rfl⟩ := List.mem_map.1 hl
    exact hb.1 m hm
  obtain ⟨b0, hb0⟩ := ray_exists e.dist (lenses.map (linPlane U)) 1 0
  obtain ⟨b1, hb1⟩ := ray_exists e.dist (lenses.map (linPlane U)) 0 1
  obtain ⟨p, q, hp, hq⟩ := key b0 b1 hb0 hb1 _ zs hb.2.1 (Nat.lt_succ_self _)
  have hD0 : D (1, 0) = (p + q * g1, q * g2) := by
    have := hDv 1 0
    rw [C16_lens_equation e zs hr _ (by simpa using hne) hs' hb' 1 0 b0 hb0, hp] at this
    exact (Option.some.inj this).symm
  have hD1 : D (0, 1) = (q * g2, p - q * g1) := by
    have := hDv 0 1
    rw [C16_lens_equation e zs hr _ (by simpa using hne) hs' hb' 0 1 b1 hb1, hq] at this
    exact (Option.some.inj this).symm
  have heff : HasFDerivAt (fun p : ℝ × ℝ => (mpEffectiveDeflection e zs lenses p.1 p.2).getD 0)
      (ContinuousLinearMap.id ℝ (ℝ × ℝ) - D) (x, y) := by
    refine ((hasFDerivAt_id ((x, y) : ℝ × ℝ)).sub hD).congr_of_eventuallyEq (Filter.Eventually.of_forall fun p => ?_)
    obtain ⟨b, hbr⟩ := ray_exists e.dist lenses p.1 p.2
    change _ = p - (mpRaytrace e zs lenses p.1 p.2).getD 0
    simp only [mpEffectiveDeflection, C16_lens_equation e zs hr lenses hne hsort hb p.1 p.2 b hbr, Option.map_some,
      Option.getD_some]
    rfl
  refine ⟨⟨_, _, _, _⟩, hasJac_of_fderiv heff, ?_⟩
  simp [effectiveCurl, hD0, hD1]

/-! ### Weak lenses -/

theorem tendsto_clm {A : ℝ → ℝ × ℝ →L[ℝ] ℝ × ℝ} {A' : ℝ × ℝ →L[ℝ] ℝ × ℝ} {v : ℝ → ℝ × ℝ} {v' : ℝ × ℝ}
    (h1 : Filter.Tendsto A (nhds 0) (nhds A')) (h2 : Filter.Tendsto v (nhds 0) (nhds v')) :
    Filter.Tendsto (fun t => A t (v t)) (nhds 0) (nhds (A' v')) :=
  ((isBoundedBilinearMap_apply (𝕜 := ℝ)).continuous.tendsto (A', v')).comp (h1.prodMk_nhds h2)

theorem plane_times (e : MPEnv ℝ) (zs : ℝ) (l : ThinLensFn ℝ) (t x y : ℝ) :
    (ThinLensFn.plane e zs (l.times t)).alpha x y = (e.angDist zs / e.angDist12 l.z zs * t) • l.reduced x y := by
  simp only [ThinLensFn.plane, ThinLensFn.physical, physicalFromReduced, ThinLensFn.times, Prod.smul_fst, Prod.smul_snd, smul_eq_mul]
  refine Prod.ext ?_ ?_ <;> simp only [Prod.smul_fst, Prod.smul_snd, smul_eq_mul] <;> ring

/-- To first order in their strength the convergence of a multiplane system is the sum of the convergences of its lenses, and
there is no rotation. -/
theorem C109_weak (e : MPEnv ℝ) (zs : ℝ) (hr : e.radToArcsec ≠ 0) (hd : GrowingDist e.dist) (ls : List (ThinLensFn ℝ))
    (hne : ls ≠ []) (hsort : ls.Pairwise fun l m => l.z ≤ m.z) (hb : ∀ l ∈ ls, 0 < l.z ∧ l.z < zs) (x y : ℝ)
    (hdiff : ∀ l ∈ ls, ∀ᶠ p in nhds ((x, y) : ℝ × ℝ), DifferentiableAt ℝ (fun p : ℝ × ℝ => l.reduced p.1 p.2) p)
    (hcont : ∀ l ∈ ls, ContinuousAt (fderiv ℝ fun p : ℝ × ℝ => l.reduced p.1 p.2) (x, y))
    (kap : ThinLensFn ℝ → ℝ) (hkap : ∀ l ∈ ls, HasKappa l.reduced (kap l) x y) :
    ∃ J : ℝ → M22 ℝ,
      (∀ᶠ t in nhds 0, HasJac (fun x y => (mpEffectiveDeflection e zs
        ((ls.map (ThinLensFn.times t)).map (ThinLensFn.plane e zs)) x y).getD 0)
        (J t).a00 (J t).a01 (J t).a10 (J t).a11 x y) ∧
      HasDerivAt (fun t => effectiveDiv (J t)) (ls.map kap).sum 0 ∧ HasDerivAt (fun t => effectiveCurl (J t)) 0 0 := by
  have hzs : 0 < zs := by
    obtain ⟨l, hl⟩ := List.exists_mem_of_ne_nil ls hne
    exact (hb l hl).1.trans (hb l hl).2
  have hz1 : 1 + zs ≠ 0 := by linarith
  choose beta hray using fun t => ray_exists e.dist ((ls.map (ThinLensFn.times t)).map (ThinLensFn.plane e zs)) x y
  have hsort' : ∀ t, (ls.map (ThinLensFn.times t)).Pairwise fun l m => l.z ≤ m.z := by
    intro t
    rw [List.pairwise_map]
    exact hsort
  have hb' : ∀ t, ∀ l ∈ ls.map (ThinLensFn.times t), 0 < l.z ∧ l.z < zs := by
    intro t l hl
    obtain ⟨m, hm, rfl⟩ := List.mem_map.1 hl
    exact hb m hm
  have hpos : ∀ l ∈ ls, 0 < l.z := fun l hl => (hb l hl).1
  have hlim : ∀ l ∈ ls, Filter.Tendsto (fun t => beta t l.z) (nhds 0) (nhds (x, y)) := fun l hl =>
    ray_tendsto e zs hz1 ls hpos x y (fun l hl => ((hdiff l hl).self_of_nhds).continuousAt) beta hray _ l.z (hpos l hl)
      (Nat.lt_succ_self _)
  -- the linearised lenses
  set F : ThinLensFn ℝ → ℝ → ℝ × ℝ →L[ℝ] ℝ × ℝ := fun l t => fderiv ℝ (fun p : ℝ × ℝ => l.reduced p.1 p.2) (beta t l.z) with hF
  set lin : ℝ → ThinLensFn ℝ → ThinLensFn ℝ := fun t l => ⟨l.z, fun u v => t • F l t (u, v), fun _ _ => 0⟩ with hlin
  set U : ℝ → MPlane ℝ → ℝ × ℝ →L[ℝ] ℝ × ℝ := fun t m => fderiv ℝ (fun p : ℝ × ℝ => m.alpha p.1 p.2) (beta t m.z) with hUdef
  have hUval : ∀ t l, U t (ThinLensFn.plane e zs (l.times t)) = (e.angDist zs / e.angDist12 l.z zs * t) • F l t := by
    intro t l
    simp only [hUdef, hF, plane_times]
    exact congrFun (fderiv_const_smul_field (e.angDist zs / e.angDist12 l.z zs * t)
      (f := fun p : ℝ × ℝ => l.reduced p.1 p.2)) (beta t l.z)
  have hplanes : ∀ t, ((ls.map (ThinLensFn.times t)).map (ThinLensFn.plane e zs)).map (linPlane (U t)) =
      (ls.map (lin t)).map (ThinLensFn.plane e zs) := by
    intro t
    simp only [List.map_map]
    refine List.map_congr_left fun l _ => ?_
    change (⟨l.z, fun u v => U t (ThinLensFn.plane e zs (l.times t)) (u, v), fun _ _ => 0⟩ : MPlane ℝ) = _
    rw [hUval]
    simp only [Function.comp, hlin, ThinLensFn.plane, MPlane.mk.injEq, true_and, and_true]
    funext u v
    simp only [ThinLensFn.physical, physicalFromReduced, smul_apply]
    refine Prod.ext ?_ ?_ <;> simp only [Prod.smul_fst, Prod.smul_snd, smul_eq_mul] <;> ring
  -- differentiable for weak lenses
  have hev : ∀ᶠ t in nhds 0, ∀ l ∈ ls, DifferentiableAt ℝ (fun p : ℝ × ℝ => l.reduced p.1 p.2) (beta t l.z) := by
    have : ∀ L : List (ThinLensFn ℝ), (∀ l ∈ L, l ∈ ls) →
        ∀ᶠ t in nhds 0, ∀ l ∈ L, DifferentiableAt ℝ (fun p : ℝ × ℝ => l.reduced p.1 p.2) (beta t l.z) := by
      intro L
      induction L with
      | nil => intro _; simp
      | cons l L ih =>
        intro hL
        have hl := hL l (by simp)
        filter_upwards [ih fun m hm => hL m (by simp [hm]), (hlim l hl).eventually (hdiff l hl)] with t h1 h2 m hm
        rcases List.mem_cons.1 hm with rfl | hm
        · exact h2
        · exact h1 m hm
    exact this ls fun l hl => hl
  have hderiv : ∀ t, (∀ l ∈ ls, DifferentiableAt ℝ (fun p : ℝ × ℝ => l.reduced p.1 p.2) (beta t l.z)) →
      ∃ D : ℝ × ℝ →L[ℝ] ℝ × ℝ,
        HasFDerivAt (fun p : ℝ × ℝ => (mpEffectiveDeflection e zs
          ((ls.map (ThinLensFn.times t)).map (ThinLensFn.plane e zs)) p.1 p.2).getD 0) D (x, y) ∧
        ∀ u v, mpEffectiveDeflection e zs ((ls.map (lin t)).map (ThinLensFn.plane e zs)) u v = some (D (u, v)) := by
    intro t ht
    obtain ⟨D, hD, hDv⟩ := C109_linearised e zs hr _ (by simpa using hne) (planes_sorted e zs _ (hsort' t))
      (planes_between e zs hd hzs _ (hb' t)) x y (beta t) (hray t) (U t) (by
        intro m hm
        obtain ⟨l', hl', rfl⟩ := List.mem_map.1 hm
        obtain ⟨l, hl, rfl⟩ := List.mem_map.1 hl'
        simp only [hUval, plane_times]
        exact (ht l hl).hasFDerivAt.const_smul (e.angDist zs / e.angDist12 l.z zs * t))
    refine ⟨ContinuousLinearMap.id ℝ (ℝ × ℝ) - D, ?_, fun u v => ?_⟩
    · refine ((hasFDerivAt_id ((x, y) : ℝ × ℝ)).sub hD).congr_of_eventuallyEq (Filter.Eventually.of_forall fun p => ?_)
      obtain ⟨b, hbr⟩ := ray_exists e.dist ((ls.map (ThinLensFn.times t)).map (ThinLensFn.plane e zs)) p.1 p.2
      change _ = p - (mpRaytrace e zs _ p.1 p.2).getD 0
      simp only [mpEffectiveDeflection, C16_lens_equation e zs hr _ (by simpa using hne) (planes_sorted e zs _ (hsort' t))
        (planes_between e zs hd hzs _ (hb' t)) p.1 p.2 b hbr, Option.map_some, Option.getD_some]
      rfl
    · have := hDv u v
      rw [hplanes] at this
      simp only [mpEffectiveDeflection, this, Option.map_some, sub_apply, ContinuousLinearMap.id_apply]
      rfl
  -- the linearised ray and its limit
  have hbl : ∀ t, ∀ l ∈ ls.map (lin t), 0 < l.z ∧ l.z < zs := by
    intro t l hl
    obtain ⟨m, hm, rfl⟩ := List.mem_map.1 hl
    exact hb m hm
  have hsl : ∀ t, (ls.map (lin t)).Pairwise fun l m => l.z ≤ m.z := by
    intro t
    rw [List.pairwise_map]
    exact hsort
  have hFlim : ∀ l ∈ ls, Filter.Tendsto (F l) (nhds 0) (nhds (fderiv ℝ (fun p : ℝ × ℝ => l.reduced p.1 p.2) (x, y))) :=
    fun l hl => (hcont l hl).tendsto.comp (hlim l hl)
  have hrow : ∀ u v : ℝ, ∃ c : ℝ → ℝ × ℝ,
      (∀ t, mpEffectiveDeflection e zs ((ls.map (lin t)).map (ThinLensFn.plane e zs)) u v = some (c t)) ∧
      HasDerivAt c ((ls.map fun l => fderiv ℝ (fun p : ℝ × ℝ => l.reduced p.1 p.2) (x, y) (u, v)).sum) 0 := by
    intro u v
    choose b hbray using fun t => ray_exists e.dist ((ls.map (lin t)).map (ThinLensFn.plane e zs)) u v
    have heq : ∀ t z, 0 < z → b t z = (u, v) - ((ls.filter fun l => l.z < z).map fun l =>
        rayWeight e.dist zs l.z z • t • F l t (b t l.z)).sum := by
      intro t z hz
      rw [isRay_thin e zs hz1 _ u v _ (hbray t) hz, List.filter_map, List.map_map]
      rfl
    have hblim : ∀ n : ℕ, ∀ z, 0 < z → (ls.filter fun l => l.z < z).length < n →
        Filter.Tendsto (fun t => b t z) (nhds 0) (nhds (u, v)) := by
      intro n
      induction n with
      | zero => intro z _ hz; omega
      | succ n ih =>
        intro z hz hlen
        have hsum : ∀ L : List (ThinLensFn ℝ), (∀ l ∈ L, l ∈ ls.filter fun l => l.z < z) →
            Filter.Tendsto (fun t => (L.map fun l => rayWeight e.dist zs l.z z • t • F l t (b t l.z)).sum) (nhds 0) (nhds 0) := by
          intro L
          induction L with
          | nil => intro _; simp
          | cons l L ihL =>
            intro hL
            have hl := List.mem_filter.1 (hL l (by simp))
            have hlt : l.z < z := by simpa using hl.2
            have h1 := ihL fun m hm => hL m (by simp [hm])
            have h2 := tendsto_clm (hFlim l hl.1) (ih l.z (hpos l hl.1)
              (lt_of_lt_of_le (filter_lt_length ThinLensFn.z ls hl.1 hlt) (Nat.lt_succ_iff.1 hlen)))
            have h3 := (Filter.tendsto_id (α := ℝ) (x := nhds 0)).smul h2
            have h4 := (h3.const_smul (rayWeight e.dist zs l.z z)).add h1
            simpa using h4
        have := (tendsto_const_nhds (x := ((u, v) : ℝ × ℝ)) (f := nhds (0 : ℝ))).sub (hsum _ fun l hl => hl)
        rw [sub_zero] at this
        exact this.congr fun t => (heq t z hz).symm
    have hval : ∀ t, (u - (b t zs).1, v - (b t zs).2) = t • (ls.map fun l => F l t (b t l.z)).sum := by
      intro t
      have h := heq t zs hzs
      have hall : ls.filter (fun l => l.z < zs) = ls := List.filter_eq_self.2 fun l hl => by simpa using (hb l hl).2
      rw [hall] at h
      have h2 : (u - (b t zs).1, v - (b t zs).2) = (u, v) - b t zs := rfl
      rw [h2, h, sub_sub_cancel, List.smul_sum, List.map_map]
      congr 1
      refine List.map_congr_left fun l hl => ?_
      rw [rayWeight_source hd (hb l hl).1 (hb l hl).2, one_smul]
      rfl
    refine ⟨fun t => (u - (b t zs).1, v - (b t zs).2), fun t => ?_, ?_⟩
    · exact C16_effective_deflection e zs hr _ (by simpa using hne) (planes_sorted e zs _ (hsl t))
        (planes_between e zs hd hzs _ (hbl t)) u v (b t) (hbray t)
    · rw [hasDerivAt_iff_tendsto_slope]
      have hsum : ∀ L : List (ThinLensFn ℝ), (∀ l ∈ L, l ∈ ls) →
          Filter.Tendsto (fun t => (L.map fun l => F l t (b t l.z)).sum) (nhds 0)
            (nhds (L.map fun l => fderiv ℝ (fun p : ℝ × ℝ => l.reduced p.1 p.2) (x, y) (u, v)).sum) := by
        intro L
        induction L with
        | nil => intro _; simp
        | cons l L ih =>
          intro hL
          have hl := hL l (by simp)
          simp only [List.map_cons, List.sum_cons]
          exact (tendsto_clm (hFlim l hl) (hblim _ l.z (hpos l hl) (Nat.lt_succ_self _))).add (ih fun m hm => hL m (by simp [hm]))
      refine ((hsum ls fun l hl => hl).mono_left nhdsWithin_le_nhds).congr' ?_
      filter_upwards [self_mem_nhdsWithin] with t ht
      have ht' : t ≠ 0 := ht
      simp only [slope, hval, vsub_eq_sub, sub_zero, zero_smul, smul_smul, inv_mul_cancel₀ ht', one_smul]
  obtain ⟨c0, hc0, hd0⟩ := hrow 1 0
  obtain ⟨c1, hc1, hd1⟩ := hrow 0 1
  have h01 : ∀ L : List (ThinLensFn ℝ), (∀ l ∈ L, l ∈ ls) →
      (1 / 2 : ℝ) * ((L.map fun l : ThinLensFn ℝ => fderiv ℝ (fun p : ℝ × ℝ => l.reduced p.1 p.2) (x, y) (1, 0)).sum.1 +
        (L.map fun l : ThinLensFn ℝ => fderiv ℝ (fun p : ℝ × ℝ => l.reduced p.1 p.2) (x, y) (0, 1)).sum.2) = (L.map kap).sum ∧
      (L.map fun l : ThinLensFn ℝ => fderiv ℝ (fun p : ℝ × ℝ => l.reduced p.1 p.2) (x, y) (1, 0)).sum.2 -
        (L.map fun l : ThinLensFn ℝ => fderiv ℝ (fun p : ℝ × ℝ => l.reduced p.1 p.2) (x, y) (0, 1)).sum.1 = 0 := by
    intro L
    induction L with
    | nil => intro _; simp
    | cons l L ih =>
      intro hL
      obtain ⟨i1, i2⟩ := ih fun m hm => hL m (by simp [hm])
      obtain ⟨axx, axy, ayy, hJ, hk⟩ := hkap l (hL l (by simp))
      have hf := (hasJac_iff.1 hJ).fderiv
      simp only [List.map_cons, List.sum_cons, Prod.fst_add, Prod.snd_add, hf, matLin_apply, hk]
      constructor
      · rw [← i1]; ring
      · linarith
  obtain ⟨k1, k2⟩ := h01 ls fun l hl => hl
  refine ⟨fun t => ⟨(c0 t).1, (c1 t).1, (c0 t).2, (c1 t).2⟩, ?_, ?_, ?_⟩
  · filter_upwards [hev] with t ht
    obtain ⟨D, hD, hDv⟩ := hderiv t ht
    have e0 : D (1, 0) = c0 t := Option.some.inj ((hDv 1 0).symm.trans (hc0 t))
    have e1 : D (0, 1) = c1 t := Option.some.inj ((hDv 0 1).symm.trans (hc1 t))
    have := hasJac_of_fderiv (f := fun x y => (mpEffectiveDeflection e zs
        ((ls.map (ThinLensFn.times t)).map (ThinLensFn.plane e zs)) x y).getD 0) hD
    rwa [e0, e1] at this
  · rw [← k1]
    exact ((hasFDerivAt_fst.comp_hasDerivAt (0 : ℝ) hd0).add (hasFDerivAt_snd.comp_hasDerivAt (0 : ℝ) hd1)).const_mul (1 / 2)
  · have := ((hasFDerivAt_snd.comp_hasDerivAt (0 : ℝ) hd0).sub (hasFDerivAt_fst.comp_hasDerivAt (0 : ℝ) hd1)).const_mul (1 / 2)
    refine this.congr_deriv ?_
    have k3 := congrArg (fun r : ℝ => 1 / 2 * r) k2
    simpa using k3

/-! ### Examples -/

/-- A lens with constant convergence and shear. -/
noncomputable def constLens (z k g1 g2 : ℝ) : ThinLensFn ℝ :=
  ⟨z, fun x y => ((k + g1) * x + g2 * y, g2 * x + (k - g1) * y), fun _ _ => 0⟩

theorem constLens_jac (z k g1 g2 x y : ℝ) : HasJac (constLens z k g1 g2).reduced (k + g1) g2 g2 (k - g1) x y := by
  refine hasJac_iff.2 ?_
  have h := (matLin (k + g1) g2 g2 (k - g1)).hasFDerivAt (x := ((x, y) : ℝ × ℝ))
  refine h.congr_of_eventuallyEq (Filter.Eventually.of_forall fun p => ?_)
  rcases p with ⟨u, v⟩
  simp [constLens, matLin_apply]

/-- Two crossed shears rotate the image although each of them is the gradient of a potential. -/
example (x y : ℝ) : ∃ J : M22 ℝ, HasJac (fun x y => (mpEffectiveDeflection lineEnv 4
      ([constLens 1 0 (1 / 10) 0, constLens 2 0 0 (1 / 10)].map (ThinLensFn.plane lineEnv 4)) x y).getD 0)
      J.a00 J.a01 J.a10 J.a11 x y ∧ effectiveDiv J = 0 ∧ effectiveCurl J = -1 / 150 := by
  obtain ⟨J, h, hd, hc⟩ := C109_two_planes lineEnv 4 (by norm_num [lineEnv]) lineEnv_growing (constLens 1 0 (1 / 10) 0)
    (constLens 2 0 0 (1 / 10)) (by norm_num [constLens]) (by norm_num [constLens]) (by norm_num [constLens]) x y
    0 (1 / 10) 0 0 0 (1 / 10) (constLens_jac _ _ _ _ _ _) (constLens_jac _ _ _ _ _ _)
  refine ⟨J, h, ?_, ?_⟩
  · rw [hd]; norm_num [constLens, lineEnv]
  · rw [hc]; norm_num [constLens, lineEnv]

/-- Weak shears and sheets: the convergence is `1 + 3` times the strength. -/
example (x y : ℝ) : ∃ J : ℝ → M22 ℝ, HasDerivAt (fun t => effectiveDiv (J t)) 4 0 ∧ HasDerivAt (fun t => effectiveCurl (J t)) 0 0 ∧
    ∀ᶠ t in nhds 0, HasJac (fun x y => (mpEffectiveDeflection lineEnv 4
      (([constLens 1 1 (1 / 10) 0, constLens 2 3 0 (1 / 10)].map (ThinLensFn.times t)).map (ThinLensFn.plane lineEnv 4)) x y).getD 0)
      (J t).a00 (J t).a01 (J t).a10 (J t).a11 x y := by
  have hj : ∀ l ∈ [constLens 1 1 (1 / 10) 0, constLens 2 3 0 (1 / 10)], ∃ k g1 g2, ∀ x y,
      HasJac l.reduced (k + g1) g2 g2 (k - g1) x y := by
    intro l hl
    simp only [List.mem_cons, List.not_mem_nil, or_false] at hl
    rcases hl with rfl | rfl
    · exact ⟨_, _, _, fun x y => constLens_jac _ _ _ _ x y⟩
    · exact ⟨_, _, _, fun x y => constLens_jac _ _ _ _ x y⟩
  obtain ⟨J, h1, h2, h3⟩ := C109_weak lineEnv 4 (by norm_num [lineEnv]) lineEnv_growing
    [constLens 1 1 (1 / 10) 0, constLens 2 3 0 (1 / 10)] (by simp) (by norm_num [constLens]) (by
      intro l hl
      simp only [List.mem_cons, List.not_mem_nil, or_false] at hl
      rcases hl with rfl | rfl <;> norm_num [constLens]) x y
    (by
      intro l hl
      obtain ⟨k, g1, g2, h⟩ := hj l hl
      exact Filter.Eventually.of_forall fun p => (hasJac_iff.1 (h p.1 p.2)).differentiableAt)
    (by
      intro l hl
      obtain ⟨k, g1, g2, h⟩ := hj l hl
      have : fderiv ℝ (fun p : ℝ × ℝ => l.reduced p.1 p.2) = fun _ => matLin (k + g1) g2 g2 (k - g1) := by
        funext p
        exact (hasJac_iff.1 (h p.1 p.2)).fderiv
      rw [this]
      exact continuousAt_const)
    (fun l => l.z ^ 2 - l.z + 1) (by
      intro l hl
      simp only [List.mem_cons, List.not_mem_nil, or_false] at hl
      rcases hl with rfl | rfl
      · exact ⟨_, _, _, constLens_jac _ _ _ _ _ _, by norm_num [constLens]⟩
      · exact ⟨_, _, _, constLens_jac _ _ _ _ _ _, by norm_num [constLens]⟩)
  refine ⟨J, h2.congr_deriv ?_, h3, h1⟩
  norm_num [constLens]

end Caustics
