import Verif.Props.Multiplane
import Verif.Props.Admissible
import Verif.Model.Cosmology

/-! C102: lenses behind the source. -/

namespace Caustics

section Multi

variable {K : Type} [Field K] [LinearOrder K]

/-- C102, full statement: a plane behind the source changes nothing. -/
def C102_statement (e : MPEnv K) : Prop :=
  ∀ (zs : K) (lenses : List (MPlane K)) (b : MPlane K), lenses ≠ [] → SortedByZ lenses →
    Between e.dist lenses zs → zs < b.z →
    ∀ x y, mpRaytrace e zs (lenses ++ [b]) x y = mpRaytrace e zs lenses x y

omit [LinearOrder K] in
/-- The loop up to the last plane. -/
theorem mpChain_last (e : MPEnv K) (zs : K) (b : MPlane K) (mid : List (MPlane K)) (s : MPState K) :
    mpChain e zs false false (mid ++ [b]) s
      = mpBody e zs false false b zs (mpChain e b.z false false mid s) := by
  induction mid generalizing s with
  | nil => rfl
  | cons l ls ih =>
    simp only [List.cons_append, mpChain]
    rw [ih]
    congr 2
    cases ls <;> rfl

theorem chain_inv_last (e : MPEnv K) (zs : K) (hr : e.radToArcsec ≠ 0)
    (all : List (MPlane K)) (hsort : SortedByZ all) (hb : Between e.dist all zs) (x y : K)
    (beta : K → K × K) (hray : IsRay e.dist all x y beta) (b : MPlane K) :
    ∀ (mid pre : List (MPlane K)) (s : MPState K), all = pre ++ (mid ++ [b]) →
      RayInv e zs x y beta pre (mid ++ [b]) s →
      RayInv e zs x y beta (pre ++ mid) [b] (mpChain e b.z false false mid s) := by
  intro mid
  induction mid with
  | nil =>
    intro pre s _ h
    simpa [mpChain] using h
  | cons l ls ih =>
    intro pre s hall hinv
    obtain ⟨_, _, hall', hinv'⟩ := body_inv e zs false false hr all hsort hb x y beta hray l (ls ++ [b]) pre s
      hall hinv
    have := ih _ _ hall' hinv'
    simp only [List.append_assoc, List.singleton_append] at this
    simp only [mpChain]
    cases ls <;> exact this

/-- What the code computes instead: every plane deflects, with the weight `(D_s - D_l) / D_s`, also where that
is negative.  Missing from the full statement: it does not hold for the planes behind the source. -/
theorem C102_exact_partial [IsStrictOrderedRing K] (e : MPEnv K) (zs : K) (hr : e.radToArcsec ≠ 0)
    (lenses : List (MPlane K)) (hne : lenses ≠ []) (hsort : SortedByZ lenses) (hpos : ∀ l ∈ lenses, 0 < l.z)
    (hzs : 0 < zs) (hD : ∀ z, 0 < z → e.dist z ≠ 0) (x y : K) (beta : K → K × K)
    (hray : IsRay e.dist lenses x y beta) :
    mpRaytrace e zs lenses x y = some
      (x - (lenses.map fun l => (e.dist zs - e.dist l.z) / e.dist zs * (l.alpha (beta l.z).1 (beta l.z).2).1).sum,
       y - (lenses.map fun l => (e.dist zs - e.dist l.z) / e.dist zs * (l.alpha (beta l.z).1 (beta l.z).2).2).sum) := by
  obtain ⟨init, b, rfl⟩ : ∃ init b, lenses = init ++ [b] :=
    ⟨lenses.dropLast, lenses.getLast hne, (List.dropLast_append_getLast hne).symm⟩
  have hbz : 0 < b.z := hpos b (by simp)
  have hle : ∀ l ∈ init ++ [b], l.z ≤ b.z := by
    intro l hl
    rcases List.mem_append.1 hl with h | h
    · exact (List.pairwise_append.1 hsort).2.2 l h b (by simp)
    · rw [List.mem_singleton.1 h]
  have hbt : Between e.dist (init ++ [b]) (b.z + 1) :=
    ⟨fun l hl => ⟨hpos l hl, lt_of_le_of_lt (hle l hl) (by simp)⟩, by linarith, hD⟩
  have hDs := hD zs hzs
  have hDb := hD b.z hbz
  have hir : e.arcsecToRad * e.radToArcsec = 1 := by
    unfold MPEnv.arcsecToRad; field_simp
  -- the state in front of the last plane
  obtain ⟨l, ls, hl⟩ : ∃ l ls, init ++ [b] = l :: ls := List.exists_cons_of_ne_nil (by simp)
  have hlz : 0 < l.z := hpos l (by rw [hl]; simp)
  have hnil : (l :: ls).filter (fun m => m.z < l.z) = [] := by
    rw [List.filter_eq_nil_iff]
    intro m hm
    rcases List.mem_cons.mp hm with rfl | hm
    · simp
    · rw [hl] at hsort
      simpa using (List.pairwise_cons.mp hsort).1 m hm
  have h0 := hray l.z hlz
  rw [hl, hnil] at h0
  simp only [List.map_nil, List.sum_nil, sub_zero] at h0
  have hinv := chain_inv_last e (b.z + 1) hr (init ++ [b]) hsort hbt x y beta hray b init []
    { X := x * e.arcsecToRad * e.dist l.z, Y := y * e.arcsecToRad * e.dist l.z, thx := x, thy := y, td := 0 }
    rfl ⟨by
      rw [hl]
      simp only [List.head?_cons, Option.map_some, Option.getD_some, h0.1, h0.2]
      constructor
      · linear_combination x * e.dist l.z * hir
      · linear_combination y * e.dist l.z * hir, by simp, by simp⟩
  unfold mpRaytrace
  have hs' := hsort
  rw [hl] at hs'
  conv_lhs => rw [hl]
  rw [mpHelper_sorted e zs false false l ls hs' x y, ← hl]
  simp only [mpChain_last, Option.map_some, Option.some.injEq]
  generalize mpChain e b.z false false init _ = s at hinv
  obtain ⟨⟨hX, hY⟩, hthx, hthy⟩ := hinv
  simp only [List.head?_cons, Option.map_some, Option.getD_some, List.nil_append] at hX hY hthx hthy
  have hB := hray b.z hbz
  have key : ∀ g : K × K → K,
      (((init ++ [b]).filter fun l => l.z < b.z).map fun l =>
        (e.dist b.z - e.dist l.z) / e.dist b.z * g (l.alpha (beta l.z).1 (beta l.z).2)).sum
      = (init.map fun l => (e.dist b.z - e.dist l.z) / e.dist b.z * g (l.alpha (beta l.z).1 (beta l.z).2)).sum := by
    intro g
    exact ray_sum_prefix e.dist init [b] b.z (fun l h => hle l (by simp [h])) (by simp)
      (fun l => g (l.alpha (beta l.z).1 (beta l.z).2))
  have lin : ∀ g : K × K → K, e.dist zs *
      (init.map fun l => (e.dist zs - e.dist l.z) / e.dist zs * g (l.alpha (beta l.z).1 (beta l.z).2)).sum
      = e.dist b.z * (init.map fun l =>
          (e.dist b.z - e.dist l.z) / e.dist b.z * g (l.alpha (beta l.z).1 (beta l.z).2)).sum
        + (e.dist zs - e.dist b.z) * (init.map fun l => g (l.alpha (beta l.z).1 (beta l.z).2)).sum := by
    intro g
    clear hray hB key hsort hne hpos hle hbt hl hthx hthy
    induction init with
    | nil => simp
    | cons a t ih =>
      simp only [List.map_cons, List.sum_cons]
      rw [mul_add, ih]
      field_simp
      ring
  have hx : s.X * e.radToArcsec / e.dist b.z = (beta b.z).1 := by rw [hX]; field_simp
  have hy : s.Y * e.radToArcsec / e.dist b.z = (beta b.z).2 := by rw [hY]; field_simp
  have k1 := key Prod.fst
  have k2 := key Prod.snd
  rw [k1, k2] at hB
  have l1 := lin Prod.fst
  have l2 := lin Prod.snd
  simp only [mpBody, MPEnv.dist12, hx, hy, hthx, hthy, List.map_append, List.sum_append, List.map_cons, List.map_nil,
    List.sum_cons, List.sum_nil, add_zero]
  rw [hB.1] at hX
  rw [hB.2] at hY
  ext
  · simp only
    rw [div_eq_iff hDs]
    have e1 : (e.dist zs - e.dist b.z) / e.dist zs * e.dist zs = e.dist zs - e.dist b.z := by field_simp
    linear_combination hX + (e.dist zs - e.dist b.z) *
      (x - (init.map fun l => (l.alpha (beta l.z).1 (beta l.z).2).1).sum - (b.alpha (beta b.z).1 (beta b.z).2).1) * hir
      + l1 + (b.alpha (beta b.z).1 (beta b.z).2).1 * e1
  · simp only
    rw [div_eq_iff hDs]
    have e1 : (e.dist zs - e.dist b.z) / e.dist zs * e.dist zs = e.dist zs - e.dist b.z := by field_simp
    linear_combination hY + (e.dist zs - e.dist b.z) *
      (y - (init.map fun l => (l.alpha (beta l.z).1 (beta l.z).2).2).sum - (b.alpha (beta b.z).1 (beta b.z).2).2) * hir
      + l2 + (b.alpha (beta b.z).1 (beta b.z).2).2 * e1

/-- For thin lenses: every lens deflects by its full reduced deflection, in front of the source and behind it
alike. -/
theorem C102_thin_partial [IsStrictOrderedRing K] (e : MPEnv K) (zs : K) (hr : e.radToArcsec ≠ 0)
    (lenses : List (ThinLensFn K)) (hne : lenses ≠ []) (hsort : lenses.Pairwise fun l m => l.z ≤ m.z)
    (hpos : ∀ l ∈ lenses, 0 < l.z) (hzs : 0 < zs) (hD : ∀ z, 0 < z → e.dist z ≠ 0)
    (hls : ∀ l ∈ lenses, e.dist zs ≠ e.dist l.z) (x y : K) (beta : K → K × K)
    (hray : IsRay e.dist (lenses.map fun l => l.plane e zs) x y beta) :
    mpRaytrace e zs (lenses.map fun l => l.plane e zs) x y = some
      (x - (lenses.map fun l => (l.reduced (beta l.z).1 (beta l.z).2).1).sum,
       y - (lenses.map fun l => (l.reduced (beta l.z).1 (beta l.z).2).2).sum) := by
  rw [C102_exact_partial e zs hr _ (by simpa using hne) ?_ ?_ hzs hD x y beta hray]
  · have hDs := hD zs hzs
    have h1z : 1 + zs ≠ 0 := by positivity
    have : ∀ l ∈ lenses, ∀ a b : K, (e.dist zs - e.dist l.z) / e.dist zs * ((l.plane e zs).alpha a b).1
        = (l.reduced a b).1 ∧ (e.dist zs - e.dist l.z) / e.dist zs * ((l.plane e zs).alpha a b).2
        = (l.reduced a b).2 := by
      intro l hl a b
      have := sub_ne_zero.2 (hls l hl)
      simp only [ThinLensFn.plane, ThinLensFn.physical, physicalFromReduced, MPEnv.angDist, MPEnv.angDist12]
      constructor <;> field_simp
    simp only [List.map_map]
    congr 3
    · congr 1
      exact List.map_congr_left fun l hl => (this l hl _ _).1
    · congr 1
      exact List.map_congr_left fun l hl => (this l hl _ _).2
  · exact List.pairwise_map.2 hsort
  · intro l hl
    obtain ⟨m, hm, rfl⟩ := List.mem_map.1 hl
    exact hpos m hm

/-- So the full statement fails: a lens at redshift 6 moves a source at redshift 4. -/
theorem C102_fails : ¬ C102_statement exEnv := by
  intro h
  have := h 4 [exPlane 1 1] (exPlane 6 1) (by simp) (by simp [SortedByZ])
    ⟨by simp [exPlane], by norm_num, fun z hz => ne_of_gt hz⟩ (by norm_num [exPlane]) 8 16
  revert this
  decide +kernel

/-- Thin lenses at redshifts 1 and 6, a source at redshift 4: both deflect. -/
example :
    let l : ℚ → ThinLensFn ℚ := fun z => ⟨z, fun x y => (x / 2, y / 2), fun x y => (x * x + y * y) / 4⟩
    mpRaytrace exEnv 4 ([l 1, l 6].map fun l => l.plane exEnv 4) 8 16 ≠
      mpRaytrace exEnv 4 ([l 1].map fun l => l.plane exEnv 4) 8 16 := by
  decide +kernel

end Multi

/-! ### Lenses given by their mass -/

/-- An NFW halo at redshift `zl` with a source at `zs`, its distances from the cosmology (lenses/nfw.py:270-288,
cosmology/base.py:174-288). -/
structure NFW.At (L : NFW) (cos : Cosmo) (zl zs : ℝ) : Prop where
  G : L.Gc2 = cos.GOverC2
  d_l : L.d_l = cos.angular zl
  d_s : L.d_s = cos.angular zs
  d_ls : L.d_ls = cos.angular12 zl zs
  sigmacr : L.sigmacr = cos.criticalSurfaceDensity zl zs

/-- The halo with the signs of what depends on the distance behind it exchanged. -/
def NFW.flip (L : NFW) : NFW := { L with d_ls := -L.d_ls, sigmacr := -L.sigmacr }

theorem behind_ok {L : NFW} {cos : Cosmo} {zl zs : ℝ} (h : L.At cos zl zs) (hG : 0 < cos.GOverC2)
    (hmass : 0 < L.mass) (hc : 0 < L.c) (hDelta : 0 < L.Delta) (hrho : 0 < L.rhoc)
    (h0 : cos.comoving 0 = 0) (hmono : StrictMonoOn cos.comoving (Set.Ici 0)) (hzs : 0 < zs) (hlt : zs < zl) :
    L.flip.Ok := by
  have hzl := hzs.trans hlt
  have p1 : 0 < cos.comoving zs := h0 ▸ hmono (by simp) (Set.mem_Ici.2 hzs.le) hzs
  have p2 : 0 < cos.comoving zl := h0 ▸ hmono (by simp) (Set.mem_Ici.2 hzl.le) hzl
  have p3 : cos.comoving zs < cos.comoving zl := hmono (Set.mem_Ici.2 hzs.le) (Set.mem_Ici.2 hzl.le) hlt
  refine ⟨?_, hmass, hc, hDelta, hrho, ?_, ?_, ?_, ?_⟩
  · exact h.G ▸ hG
  · change 0 < L.d_l
    rw [h.d_l]; exact div_pos p2 (by linarith)
  · change 0 < L.d_s
    rw [h.d_s]; exact div_pos p1 (by linarith)
  · change 0 < -L.d_ls
    rw [h.d_ls, Cosmo.angular12, Cosmo.comoving12, ← neg_div]
    exact div_pos (by linarith) (by linarith)
  · change -L.sigmacr = L.d_s / (4 * Real.pi * L.Gc2 * L.d_l * -L.d_ls)
    rw [h.sigmacr, h.d_s, h.d_l, h.d_ls, h.G, Cosmo.criticalSurfaceDensity, mul_neg, div_neg]

/-- A halo behind the source repels the light: the deflection points away from its centre. -/
theorem C102_nfw_deflection_fails {L : NFW} {cos : Cosmo} {zl zs : ℝ} (h : L.At cos zl zs) (hG : 0 < cos.GOverC2)
    (hmass : 0 < L.mass) (hc : 0 < L.c) (hDelta : 0 < L.Delta) (hrho : 0 < L.rhoc) (hs : L.s = 0)
    (h0 : cos.comoving 0 = 0) (hmono : StrictMonoOn cos.comoving (Set.Ici 0)) (hzs : 0 < zs) (hlt : zs < zl)
    (x y : ℝ) (hxy : (x, y) ≠ (L.x0, L.y0)) :
    ∃ k, k < 0 ∧ L.deflection x y = (k * (x - L.x0), k * (y - L.y0)) := by
  obtain ⟨k, hk, he⟩ := C54_nfw_deflection L.flip (behind_ok h hG hmass hc hDelta hrho h0 hmono hzs hlt) hs x y hxy
  refine ⟨-k, by linarith, ?_⟩
  have e1 : L.deflection x y = (-(L.flip.deflection x y).1, -(L.flip.deflection x y).2) := by
    simp only [NFW.deflection, NFW.flip, neg_div, neg_mul, neg_neg]
    rfl
  rw [e1, he]
  simp only [NFW.flip, neg_mul]

/-- and its convergence is negative. -/
theorem C102_nfw_convergence_fails {L : NFW} {cos : Cosmo} {zl zs : ℝ} (h : L.At cos zl zs) (hG : 0 < cos.GOverC2)
    (hmass : 0 < L.mass) (hc : 0 < L.c) (hDelta : 0 < L.Delta) (hrho : 0 < L.rhoc) (hs : L.s = 0)
    (h0 : cos.comoving 0 = 0) (hmono : StrictMonoOn cos.comoving (Set.Ici 0)) (hzs : 0 < zs) (hlt : zs < zl)
    (x y : ℝ) (hxy : (x, y) ≠ (L.x0, L.y0)) (hw : 1e-6 < |L.radius x y - 1|) :
    ∃ k, L.convergence x y = some k ∧ k < 0 := by
  have hok := behind_ok h hG hmass hc hDelta hrho h0 hmono hzs hlt
  have hrs : 0 < L.rs := NFW.rs_pos (L := L.flip) hok
  have hdl : 0 < L.d_l := hok.d_l
  have ha := arcsecToRad_pos
  have hrad : 0 ≤ L.radius x y := by unfold NFW.radius; positivity
  have hfar : L.radius (L.x0 + (L.radius x y + 3) * L.rs / (L.d_l * arcsecToRad)) L.y0 = L.radius x y + 3 := by
    generalize L.radius x y = R at hrad
    have : √((L.x0 + (R + 3) * L.rs / (L.d_l * arcsecToRad) - L.x0) ^ 2 + (L.y0 - L.y0) ^ 2)
        = (R + 3) * L.rs / (L.d_l * arcsecToRad) := by
      rw [show (L.x0 + (R + 3) * L.rs / (L.d_l * arcsecToRad) - L.x0) ^ 2 + (L.y0 - L.y0) ^ 2
        = ((R + 3) * L.rs / (L.d_l * arcsecToRad)) ^ 2 by ring, Real.sqrt_sq (by positivity)]
    unfold NFW.radius
    rw [this]
    field_simp
  obtain ⟨k, k', he, -, hk', hkk⟩ := C54_nfw L.flip hok hs x y
    (L.x0 + (L.radius x y + 3) * L.rs / (L.d_l * arcsecToRad)) L.y0 hxy
    (by change L.radius x y < L.radius _ _; rw [hfar]; linarith) hw
    (by change 1e-6 < |L.radius _ _ - 1|; rw [hfar, abs_of_pos (by linarith)]; norm_num; linarith)
  refine ⟨-k, ?_, by linarith⟩
  have e1 : L.flip.convergence x y = (L.convergence x y).map fun k => -k := by
    have hd : ∀ a b : ℝ, divOpt (-a) b = (divOpt a b).map fun k => -k := by
      intro a b
      unfold divOpt
      split
      · rfl
      · simp [neg_div]
    have hk : nfwConvergenceS (-L.sigmacr) L.rhoc L.mass L.c L.Delta
        = -nfwConvergenceS L.sigmacr L.rhoc L.mass L.c L.Delta := by simp [nfwConvergenceS, div_neg]
    unfold NFW.convergence
    rw [← hd, ← neg_mul, ← mul_neg, ← hk]
    rfl
  rw [e1] at he
  cases hL : L.convergence x y with
  | none => rw [hL] at he; simp at he
  | some v => rw [hL] at he; simp only [Option.map_some, Option.some.injEq] at he; rw [← he, neg_neg]

/-- A halo at redshift 2 in front of which the source sits, at redshift 1, in a universe with comoving distance
`z`. -/
example : ∃ (L : NFW) (cos : Cosmo), L.At cos 2 1 ∧ (∃ k, k < 0 ∧ L.deflection 3 4 = (k * 3, k * 4)) := by
  let cos : Cosmo := ⟨id, id, 1⟩
  let L : NFW := ⟨1, 0, 0, 1, 1, 1, 1, cos.angular 2, cos.angular 1, cos.angular12 2 1,
    cos.criticalSurfaceDensity 2 1, 0⟩
  have hL : L.At cos 2 1 := ⟨rfl, rfl, rfl, rfl, rfl⟩
  refine ⟨L, cos, hL, ?_⟩
  obtain ⟨k, hk, h⟩ := C102_nfw_deflection_fails hL one_pos one_pos one_pos one_pos one_pos rfl rfl
    (strictMono_id.strictMonoOn _) one_pos one_lt_two 3 4 (by simp [L])
  exact ⟨k, hk, by simpa [L] using h⟩

end Caustics
