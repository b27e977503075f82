import Verif.Lemmas.Multiplane
import Mathlib.Tactic.NormNum
import Mathlib.Tactic.LinearCombination
import Mathlib.Algebra.Order.Ring.Rat

/-!
C16-C20 and C57: multiplane ray tracing and time delays.
-/

namespace Caustics

variable {K : Type} [Field K] [LinearOrder K]

/-! ### C16 -/

/-- C16: for lenses listed in order of increasing redshift (ties allowed) `raytrace` returns the
position at the source redshift of the solution of the multiplane lens equation. -/
theorem C16_lens_equation (e : MPEnv K) (zs : K) (hr : e.radToArcsec ≠ 0)
    (lenses : List (MPlane K)) (hne : lenses ≠ []) (hsort : SortedByZ lenses)
    (hb : Between e.dist lenses zs) (x y : K) (beta : K → K × K)
    (hray : IsRay e.dist lenses x y beta) :
    mpRaytrace e zs lenses x y = some (beta zs) := by
  cases lenses with
  | nil => exact absurd rfl hne
  | cons l ls =>
    have hD : e.dist zs ≠ 0 := hb.2.2 _ hb.2.1
    unfold mpRaytrace
    rw [mpHelper_sorted e zs false false l ls hsort x y]
    have hlz := (hb.1 l (by simp)).1
    have hnil : (l :: ls).filter (fun m => m.z < l.z) = [] := by
      rw [List.filter_eq_nil_iff]
      intro m hm
      rcases List.mem_cons.mp hm with rfl | hm
      · simp
      · simpa using (List.pairwise_cons.mp hsort).1 m hm
    have h0 := hray l.z hlz
    rw [hnil] at h0
    simp only [List.map_nil, List.sum_nil, sub_zero] at h0
    have hir : e.arcsecToRad * e.radToArcsec = 1 := by
      unfold MPEnv.arcsecToRad; field_simp
    have := chain_inv e zs false false hr (l :: ls) hsort hb x y beta hray (l :: ls) []
      { X := x * e.arcsecToRad * e.dist l.z, Y := y * e.arcsecToRad * e.dist l.z,
        thx := x, thy := y, td := 0 } rfl
      ⟨by
        simp only [List.head?_cons, Option.map_some, Option.getD_some, h0.1, h0.2]
        constructor
        · linear_combination x * e.dist l.z * hir
        · linear_combination y * e.dist l.z * hir, by simp, by simp⟩
    simp only [Option.map_some, Option.some.injEq]
    rw [this.1, this.2]
    ext <;> simp only <;> field_simp

/-- C16: the multiplane lens equation always has a solution, unique at positive redshifts, so
the value above is well defined. -/
theorem C16_exists_unique (dist : K → K) (lenses : List (MPlane K))
    (hpos : ∀ l ∈ lenses, 0 < l.z) (x y : K) :
    (∃ beta, IsRay dist lenses x y beta) ∧
    ∀ b b', IsRay dist lenses x y b → IsRay dist lenses x y b' → ∀ z, 0 < z → b z = b' z :=
  ⟨ray_exists dist lenses x y, fun b b' h h' => ray_unique dist lenses hpos x y b b' h h'⟩

/-- C16, error branch: no lenses is an error. -/
theorem C16_empty (e : MPEnv K) (zs : K) (x y : K) : mpRaytrace e zs [] x y = none := rfl

/-- C16: `effective_reduced_deflection_angle` is what separates image and source position. -/
theorem C16_effective_deflection (e : MPEnv K) (zs : K) (hr : e.radToArcsec ≠ 0)
    (lenses : List (MPlane K)) (hne : lenses ≠ []) (hsort : SortedByZ lenses)
    (hb : Between e.dist lenses zs) (x y : K) (beta : K → K × K)
    (hray : IsRay e.dist lenses x y beta) :
    mpEffectiveDeflection e zs lenses x y = some (x - (beta zs).1, y - (beta zs).2) := by
  unfold mpEffectiveDeflection
  rw [C16_lens_equation e zs hr lenses hne hsort hb x y beta hray]
  rfl

/-- Environment used in examples: `D(z) = z`. -/
def exEnv : MPEnv ℚ := ⟨fun z => z, 4, 2, 1⟩

/-- A sheet-like lens with physical deflection `k * (x, y)`. -/
def exPlane (z k : ℚ) : MPlane ℚ := ⟨z, fun x y => (k * x, k * y), fun x y => k * (x * x + y * y)⟩

/-- Three planes meeting the hypotheses of C16, and the traced value. -/
example : SortedByZ [exPlane 1 1, exPlane 2 (1 / 2), exPlane 3 3] ∧
    Between exEnv.dist [exPlane 1 1, exPlane 2 (1 / 2), exPlane 3 3] 4 ∧
    mpRaytrace exEnv 4 [exPlane 1 1, exPlane 2 (1 / 2), exPlane 3 3] 8 16
      = some (-1 / 2, -1) := by
  refine ⟨?_, ⟨?_, ?_, ?_⟩, ?_⟩
  · simp [SortedByZ, exPlane]; norm_num
  · intro l hl
    simp at hl
    rcases hl with rfl | rfl | rfl <;> simp [exPlane] <;> norm_num
  · norm_num
  · intro z hz; exact ne_of_gt hz
  · decide +kernel

/-! ### C17 -/

/-- C17, full statement: permuting the lenses (distinct redshifts between observer and source)
changes neither the traced position nor the time delay. -/
def OrderIndependent (e : MPEnv K) : Prop :=
  ∀ (zs : K) (lenses lenses' : List (MPlane K)), lenses.Perm lenses' →
    (lenses.map MPlane.z).Nodup → Between e.dist lenses zs →
    ∀ x y, mpRaytrace e zs lenses x y = mpRaytrace e zs lenses' x y ∧
      ∀ sh ge, mpTimeDelay e zs sh ge lenses x y = mpTimeDelay e zs sh ge lenses' x y

/-- C17 partial: the order is irrelevant as long as both listings are in increasing order of
redshift, i.e. only lenses at equal redshift are exchanged.  Missing: listings that are not in
increasing order, where the code misbehaves (see `C17_fails`). -/
theorem C17_order_partial (e : MPEnv K) (zs : K) (hr : e.radToArcsec ≠ 0)
    (lenses lenses' : List (MPlane K)) (hp : lenses.Perm lenses') (hs : SortedByZ lenses)
    (hs' : SortedByZ lenses') (hb : Between e.dist lenses zs) (x y : K) :
    mpRaytrace e zs lenses x y = mpRaytrace e zs lenses' x y := by
  by_cases hne : lenses = []
  · subst hne
    rw [List.nil_perm.mp hp]
  · have hne' : lenses' ≠ [] := by
      intro h; subst h; exact hne (List.perm_nil.mp hp)
    have hb' : Between e.dist lenses' zs :=
      ⟨fun l hl => hb.1 l (hp.mem_iff.mpr hl), hb.2.1, hb.2.2⟩
    obtain ⟨beta, hbeta⟩ := ray_exists e.dist lenses x y
    have hbeta' : IsRay e.dist lenses' x y beta := by
      intro z hz
      have := hbeta z hz
      have hpf := hp.filter (fun l => decide (l.z < z))
      rw [← (hpf.map _).sum_eq, ← (hpf.map _).sum_eq]
      exact this
    rw [C16_lens_equation e zs hr lenses hne hs hb x y beta hbeta,
      C16_lens_equation e zs hr lenses' hne' hs' hb' x y beta hbeta']

omit [LinearOrder K] in
private theorem mpLoop_none (e : MPEnv K) (zs : K) (sh ge : Bool) (lenses : List (MPlane K))
    (last : Nat) (order : List Nat) (i : Nat) (hi : i ∈ order) (hlast : i ≠ last)
    (hout : lenses.length ≤ i + 1) (s : MPState K) :
    mpLoop e zs sh ge lenses last order s = none := by
  induction order generalizing s with
  | nil => simp at hi
  | cons j js ih =>
    unfold mpLoop
    by_cases hij : i = j
    · subst hij
      have : (lenses.map MPlane.z)[i + 1]? = none := by
        rw [List.getElem?_eq_none]; simpa using hout
      rw [if_pos hlast, this]
      cases lenses[i]? <;> rfl
    · have hi' : i ∈ js := by
        rcases List.mem_cons.mp hi with h | h
        · exact absurd h hij
        · exact h
      split
      · exact ih hi' _
      · rfl

/-- C17, what goes wrong in general: whenever some lens lies behind the lens listed last, ray
tracing raises (the lookup `z_ls[i + 1]` runs off the list). -/
theorem C17_fails_last_not_farthest (e : MPEnv K) (zs : K) (init : List (MPlane K))
    (lastLens : MPlane K) (l : MPlane K) (hl : l ∈ init) (hz : lastLens.z < l.z)
    (sh ge : Bool) (x y : K) :
    mpRaytrace e zs (init ++ [lastLens]) x y = none ∧
    mpTimeDelay e zs sh ge (init ++ [lastLens]) x y = none := by
  have key : ∀ sh ge, mpHelper e zs sh ge (init ++ [lastLens]) x y = none := by
    intro sh ge
    set lenses := init ++ [lastLens] with hlenses
    have hlen : lenses.length = init.length + 1 := by simp [hlenses]
    set n := init.length with hn
    set zl := lenses.map MPlane.z with hzl
    set srt := zl.zipIdx.insertionSort (fun p q => p.1 ≤ q.1) with hsrt
    have hperm : srt.Perm zl.zipIdx := List.perm_insertionSort _ _
    have hpw : srt.Pairwise (fun p q => p.1 ≤ q.1) := by
      have := List.pairwise_insertionSort (fun p q : K × Nat => p.1 ≤ q.1) (l := zl.zipIdx)
      simpa [hsrt] using this
    have horder : lensPlanes zl = srt.map Prod.snd := rfl
    -- the last listed lens has index n
    have hmem_n : (lastLens.z, n) ∈ srt := by
      rw [hperm.mem_iff, List.mem_zipIdx_iff_getElem?]
      simp [hzl, hlenses, hn]
    obtain ⟨k, hk, hkl⟩ := List.mem_iff_getElem.mp hl
    have hmem_k : (l.z, k) ∈ srt := by
      rw [hperm.mem_iff, List.mem_zipIdx_iff_getElem?]
      simp only [hzl, hlenses, List.map_append, List.getElem?_append, List.length_map]
      rw [if_pos hk]
      simp [hk, hkl]
    have hne : srt ≠ [] := List.ne_nil_of_mem hmem_n
    have hlast_ge : ∀ p ∈ srt, p.1 ≤ (srt.getLast hne).1 := by
      intro p hp
      have hdl := List.dropLast_append_getLast hne
      rw [← hdl] at hp
      rcases List.mem_append.mp hp with hp | hp
      · rw [← hdl] at hpw
        exact (List.pairwise_append.mp hpw).2.2 p hp _ (by simp)
      · simp at hp; rw [hp]
    have hlast_ne : n ≠ (srt.getLast hne).2 := by
      intro hcon
      have hm := List.getLast_mem hne
      rw [hperm.mem_iff, List.mem_zipIdx_iff_getElem?] at hm
      have hz' : (srt.getLast hne).1 = lastLens.z := by
        rw [← hcon] at hm
        simp [hzl, hlenses, hn] at hm
        exact hm.symm
      have := hlast_ge _ hmem_k
      rw [hz'] at this
      exact absurd this (not_le.mpr hz)
    unfold mpHelper
    simp only [← hzl, horder]
    have h2 : (srt.map Prod.snd).getLast? = some (srt.getLast hne).2 := by
      rw [List.getLast?_map, List.getLast?_eq_getLast_of_ne_nil hne]; rfl
    rw [h2]
    cases h1 : (srt.map Prod.snd).head? with
    | none => rfl
    | some i0 =>
      simp only
      cases h3 : zl[i0]? with
      | none => rfl
      | some z0 =>
        simp only
        rw [mpLoop_none e zs sh ge lenses _ _ n
          (List.mem_map.mpr ⟨_, hmem_n, rfl⟩) hlast_ne (by omega)]
  constructor
  · unfold mpRaytrace; rw [key]; rfl
  · unfold mpTimeDelay; rw [key]; simp

/-- C17, the other failure: even when ray tracing does not raise, a list that is not in order
gives a different source position (planes listed at redshifts 2, 1, 3). -/
theorem C17_fails_wrong_value :
    mpRaytrace exEnv 4 [exPlane 2 1, exPlane 1 1, exPlane 3 1] 12 0 = some (3 / 2, 0) ∧
    mpRaytrace exEnv 4 [exPlane 1 1, exPlane 2 1, exPlane 3 1] 12 0 = some (-1 / 2, 0) := by
  constructor <;> decide +kernel

/-- C17 as stated does not hold for the code. -/
theorem C17_fails : ¬ OrderIndependent exEnv := by
  intro h
  have hb : Between exEnv.dist [exPlane 2 1, exPlane 1 1, exPlane 3 1] 4 := by
    refine ⟨?_, by norm_num, fun z hz => ne_of_gt hz⟩
    intro l hl
    simp at hl
    rcases hl with rfl | rfl | rfl <;> simp [exPlane] <;> norm_num
  have := (h 4 [exPlane 2 1, exPlane 1 1, exPlane 3 1] [exPlane 1 1, exPlane 2 1, exPlane 3 1]
    (List.Perm.swap _ _ _) (by simp [exPlane]) hb 12 0).1
  rw [C17_fails_wrong_value.1, C17_fails_wrong_value.2] at this
  norm_num at this

/-- Two lenses at the same redshift can be exchanged. -/
example : let a := exPlane 1 1; let b : MPlane ℚ := ⟨1, fun x y => (y, x * x), fun _ _ => 0⟩
    [a, b, exPlane 2 1].Perm [b, a, exPlane 2 1] ∧ SortedByZ [a, b, exPlane 2 1] ∧
    SortedByZ [b, a, exPlane 2 1] ∧
    mpRaytrace exEnv 4 [a, b, exPlane 2 1] 1 2 = mpRaytrace exEnv 4 [b, a, exPlane 2 1] 1 2 := by
  refine ⟨List.Perm.swap _ _ _, ?_, ?_, ?_⟩
  · simp [SortedByZ, exPlane]
  · simp [SortedByZ, exPlane]
  · decide +kernel

/-! ### C18 -/

/-- C18: a Multiplane with one lens traces every ray like the lens itself. -/
theorem C18_one_plane (e : MPEnv K) (zs : K) (hr : e.radToArcsec ≠ 0) (l : ThinLensFn K)
    (hl : e.dist l.z ≠ 0) (hs : e.dist zs ≠ 0) (hls : e.dist zs ≠ e.dist l.z)
    (hzs : 1 + zs ≠ 0) (x y : K) :
    mpRaytrace e zs [l.plane e zs] x y = some (l.raytrace x y) := by
  have hls' : e.dist zs - e.dist l.z ≠ 0 := sub_ne_zero.mpr hls
  unfold mpRaytrace
  rw [mpHelper_sorted e zs false false (l.plane e zs) [] (by simp [SortedByZ]) x y]
  have hir : e.arcsecToRad * e.radToArcsec = 1 := by
    unfold MPEnv.arcsecToRad; field_simp
  have hx : ∀ t : K, t * e.arcsecToRad * e.dist l.z * e.radToArcsec / e.dist l.z = t := by
    intro t
    rw [div_eq_iff hl]
    linear_combination t * e.dist l.z * hir
  simp only [mpChain, mpBody, ThinLensFn.plane, hx, List.head?_nil, Option.map_none,
    Option.getD_none, Option.map_some, Option.some.injEq, ThinLensFn.raytrace]
  have hphys : ∀ a : K × K, physicalFromReduced a (e.angDist zs) (e.angDist12 l.z zs)
      = ((e.dist zs / (e.dist zs - e.dist l.z)) * a.1,
         (e.dist zs / (e.dist zs - e.dist l.z)) * a.2) := by
    intro a
    unfold physicalFromReduced MPEnv.angDist MPEnv.angDist12
    ext <;> simp only <;> field_simp
  simp only [ThinLensFn.physical, hphys, MPEnv.dist12]
  have key : ∀ t a : K, (t * e.arcsecToRad * e.dist l.z + (e.dist zs - e.dist l.z)
      * (t - e.dist zs / (e.dist zs - e.dist l.z) * a) * e.arcsecToRad) * e.radToArcsec
        / e.dist zs = t - a := by
    intro t a
    rw [div_eq_iff hs]
    have : (e.dist zs - e.dist l.z) * (t - e.dist zs / (e.dist zs - e.dist l.z) * a)
        = (e.dist zs - e.dist l.z) * t - e.dist zs * a := by field_simp
    rw [this]
    linear_combination (t * e.dist l.z + ((e.dist zs - e.dist l.z) * t - e.dist zs * a)) * hir
  ext
  · exact key x _
  · exact key y _

/-- A one-plane system meeting the hypotheses. -/
example : let l : ThinLensFn ℚ := ⟨1, fun x y => (x * y, x - y), fun x y => x * y⟩
    mpRaytrace exEnv 4 [l.plane exEnv 4] 3 5 = some (-12, 7) ∧ exEnv.dist l.z ≠ 0 ∧
      exEnv.dist 4 ≠ exEnv.dist l.z := by
  refine ⟨by decide +kernel, by decide +kernel, by decide +kernel⟩

/-! ### C19 -/

/-- C19: planes that do not deflect leave every ray where it is. -/
theorem C19_identity (e : MPEnv K) (zs : K) (hr : e.radToArcsec ≠ 0)
    (lenses : List (MPlane K)) (hne : lenses ≠ []) (hsort : SortedByZ lenses)
    (hb : Between e.dist lenses zs) (h0 : ∀ l ∈ lenses, ∀ x y, l.alpha x y = (0, 0)) (x y : K) :
    mpRaytrace e zs lenses x y = some (x, y) := by
  have hray : IsRay e.dist lenses x y (fun _ => (x, y)) := by
    intro z _
    have hz : ∀ (g : K × K → K), g (0, 0) = 0 → ((lenses.filter fun l => l.z < z).map fun l =>
        (e.dist z - e.dist l.z) / e.dist z * g (l.alpha x y)).sum = 0 := by
      intro g hg
      apply List.sum_eq_zero
      intro t ht
      obtain ⟨l, hl, rfl⟩ := List.mem_map.mp ht
      rw [h0 l (List.mem_filter.mp hl).1, hg, mul_zero]
    exact ⟨by rw [hz Prod.fst rfl, sub_zero], by rw [hz Prod.snd rfl, sub_zero]⟩
  exact C16_lens_equation e zs hr lenses hne hsort hb x y _ hray

/-- C19: inserting a plane that does not deflect, at its place in redshift order, does not
change any traced position. -/
theorem C19_insert (e : MPEnv K) (zs : K) (hr : e.radToArcsec ≠ 0)
    (pre suf : List (MPlane K)) (z0 : K) (hne : pre ++ suf ≠ [])
    (hsort : SortedByZ (pre ++ massless z0 :: suf))
    (hb : Between e.dist (pre ++ massless z0 :: suf) zs) (x y : K) :
    mpRaytrace e zs (pre ++ massless z0 :: suf) x y = mpRaytrace e zs (pre ++ suf) x y := by
  have hsub : (pre ++ suf).Sublist (pre ++ massless z0 :: suf) :=
    List.Sublist.append_left (List.sublist_cons_self _ _) _
  have hsort' : SortedByZ (pre ++ suf) := List.Pairwise.sublist hsub hsort
  have hb' : Between e.dist (pre ++ suf) zs := ⟨fun l hl => hb.1 l (hsub.subset hl), hb.2⟩
  obtain ⟨beta, hbeta⟩ := ray_exists e.dist (pre ++ suf) x y
  have hbeta' : IsRay e.dist (pre ++ massless z0 :: suf) x y beta := by
    intro z hz
    have := hbeta z hz
    simp only [List.filter_append, List.map_append, List.sum_append] at this ⊢
    by_cases hlt : z0 < z
    · rw [List.filter_cons_of_pos (p := fun l : MPlane K => decide (l.z < z)) (a := massless z0)
        (decide_eq_true hlt)]
      simpa [massless] using this
    · rw [List.filter_cons_of_neg (p := fun l : MPlane K => decide (l.z < z)) (a := massless z0)
        (by rw [decide_eq_true_eq]; exact hlt)]
      exact this
  rw [C16_lens_equation e zs hr _ hne hsort' hb' x y beta hbeta,
    C16_lens_equation e zs hr _ (by simp) hsort hb x y beta hbeta']

/-- A massless plane between two real ones. -/
example : SortedByZ ([exPlane 1 1] ++ massless 2 :: [exPlane 3 1]) ∧
    mpRaytrace exEnv 4 ([exPlane 1 1] ++ massless 2 :: [exPlane 3 1]) 12 24
      = mpRaytrace exEnv 4 ([exPlane 1 1] ++ [exPlane 3 1]) 12 24 := by
  constructor
  · simp [SortedByZ, exPlane, massless]; norm_num
  · decide +kernel

/-! ### C20 -/

/-- C20, full statement: for one plane the two time delays agree. -/
def TimeDelaysAgree (e : MPEnv K) : Prop :=
  ∀ (zs : K) (l : ThinLensFn K), 0 < l.z → l.z < zs → ∀ sh ge, (sh || ge) = true → ∀ x y,
    mpTimeDelay e zs sh ge [l.plane e zs] x y = some (l.timeDelay e zs sh ge x y)

/-- C20 partial: the exact relation between the two.  The Shapiro term of Multiplane is
`1 + z_l` times that of the thin lens; the geometric term is `(1 + z_l) (D_s / D_ls)^2` times
that of the thin lens (comoving distances), because Multiplane uses comoving distances together
with the `1 + z_l` factor and physical instead of reduced deflections.  Missing: agreement, which
does not hold (`C20_fails`). -/
theorem C20_ratio_partial [IsStrictOrderedRing K] (e : MPEnv K) (zs : K) (hr : e.radToArcsec ≠ 0) (l : ThinLensFn K)
    (hl : e.dist l.z ≠ 0) (hs : e.dist zs ≠ 0) (hls : e.dist zs ≠ e.dist l.z)
    (hzl : 1 + l.z ≠ 0) (hzs : 1 + zs ≠ 0) (hc : e.cMpcS ≠ 0) (hd : e.daysToSeconds ≠ 0)
    (x y : K) :
    mpTimeDelay e zs true false [l.plane e zs] x y
      = some ((1 + l.z) * l.timeDelay e zs true false x y) ∧
    mpTimeDelay e zs false true [l.plane e zs] x y
      = some ((1 + l.z) * (e.dist zs / (e.dist zs - e.dist l.z)) ^ 2
          * l.timeDelay e zs false true x y) ∧
    mpTimeDelay e zs true true [l.plane e zs] x y
      = some ((1 + l.z) * l.timeDelay e zs true false x y
          + (1 + l.z) * (e.dist zs / (e.dist zs - e.dist l.z)) ^ 2
            * l.timeDelay e zs false true x y) := by
  have hls' : e.dist zs - e.dist l.z ≠ 0 := sub_ne_zero.mpr hls
  have hir : e.arcsecToRad * e.radToArcsec = 1 := by
    unfold MPEnv.arcsecToRad; field_simp
  have hx : ∀ t : K, t * e.arcsecToRad * e.dist l.z * e.radToArcsec / e.dist l.z = t := by
    intro t
    rw [div_eq_iff hl]
    linear_combination t * e.dist l.z * hir
  have hphys : ∀ a : K × K, physicalFromReduced a (e.angDist zs) (e.angDist12 l.z zs)
      = ((e.dist zs / (e.dist zs - e.dist l.z)) * a.1,
         (e.dist zs / (e.dist zs - e.dist l.z)) * a.2) := by
    intro a
    unfold physicalFromReduced MPEnv.angDist MPEnv.angDist12
    ext <;> simp only <;> field_simp
  have hhelp : ∀ sh ge, mpHelper e zs sh ge [l.plane e zs] x y = _ := fun sh ge =>
    mpHelper_sorted e zs sh ge (l.plane e zs) [] (by simp [SortedByZ]) x y
  refine ⟨?_, ?_, ?_⟩
  all_goals
    simp only [mpTimeDelay, hhelp]
    simp only [mpChain, mpBody, ThinLensFn.plane, hx, List.head?_nil,
      Option.map_none, Option.getD_none, Option.map_some, ThinLensFn.timeDelay,
      ThinLensFn.physical, hphys, MPEnv.dist12, MPEnv.arcsec2ToDays, Bool.or_true, Bool.or_false, if_true, Bool.false_eq_true,
      if_false, Option.some.injEq, zero_add, zero_sub]
    simp only [MPEnv.angDist, MPEnv.angDist12]
    field_simp

/-- C20 as stated does not hold for the code. -/
theorem C20_fails : ¬ TimeDelaysAgree exEnv := by
  intro h
  have := h 4 ⟨1, fun x y => (x, y), fun x y => x * y⟩ (by norm_num) (by norm_num) true false rfl
    3 5
  exact absurd this (by decide +kernel)

/-- The hypotheses of the ratio theorem are met, with a non-zero delay. -/
example : let l : ThinLensFn ℚ := ⟨1, fun x y => (x, y), fun x y => x * y⟩
    l.timeDelay exEnv 4 true false 3 5 = -(5 / 8) ∧
    mpTimeDelay exEnv 4 true false [l.plane exEnv 4] 3 5 = some (-(5 / 4)) := by
  constructor <;> decide +kernel

/-! ### C57 -/

/-- C57: the Multiplane time delay of an ordered list of lenses is the sum over consecutive
planes documented for `time_delay`,
`Σ τ_{i,i+1} (½ |α_i|² - β_{i,i+1} ψ_i)` with `τ_{i,j} = (1 + z_i) D_i D_j / (D_ij c)` and
`β_{i,j} = D_ij D_s / (D_j D_is)`, evaluated along the ray of the multiplane lens equation.  Here a zero `D_ij` gives `0`; that the code computes
numbers when no two planes share a distance, and only then, is C106. -/
theorem C57_time_delay (e : MPEnv K) (zs : K) (hr : e.radToArcsec ≠ 0)
    (lenses : List (MPlane K)) (hne : lenses ≠ []) (hsort : SortedByZ lenses)
    (hb : Between e.dist lenses zs) (x y : K) (beta : K → K × K)
    (hray : IsRay e.dist lenses x y beta) :
    let pairs := lenses.zip (lenses.tail.map MPlane.z ++ [zs])
    let tau : MPlane K × K → K := fun p =>
      (1 + p.1.z) * e.dist p.1.z * e.dist p.2 / ((e.dist p.2 - e.dist p.1.z) * e.cMpcS)
        / e.daysToSeconds
    let bet : MPlane K × K → K := fun p =>
      (e.dist p.2 - e.dist p.1.z) * e.dist zs / (e.dist p.2 * (e.dist zs - e.dist p.1.z))
    let geo := (pairs.map fun p => tau p * (1 / e.radToArcsec) ^ 2 * (1 / 2) *
      ((p.1.alpha (beta p.1.z).1 (beta p.1.z).2).1 ^ 2
        + (p.1.alpha (beta p.1.z).1 (beta p.1.z).2).2 ^ 2)).sum
    let sha := (pairs.map fun p => tau p * bet p * (1 / e.radToArcsec) ^ 2
      * p.1.psi (beta p.1.z).1 (beta p.1.z).2).sum
    mpTimeDelay e zs false true lenses x y = some geo ∧
    mpTimeDelay e zs true false lenses x y = some (-sha) ∧
    mpTimeDelay e zs true true lenses x y = some (geo - sha) := by
  intro pairs tau bet geo sha
  cases lenses with
  | nil => exact absurd rfl hne
  | cons l ls =>
    have hlz := (hb.1 l (by simp)).1
    have hnil : (l :: ls).filter (fun m => m.z < l.z) = [] := by
      rw [List.filter_eq_nil_iff]
      intro m hm
      rcases List.mem_cons.mp hm with rfl | hm
      · simp
      · simpa using (List.pairwise_cons.mp hsort).1 m hm
    have h0 := hray l.z hlz
    rw [hnil] at h0
    simp only [List.map_nil, List.sum_nil, sub_zero] at h0
    have hir : e.arcsecToRad * e.radToArcsec = 1 := by
      unfold MPEnv.arcsecToRad; field_simp
    have htd : ∀ sh ge, (mpHelper e zs sh ge (l :: ls) x y).map Prod.snd
        = some (pairs.map fun p => delayTerm e zs sh ge beta p.1 p.2).sum := by
      intro sh ge
      rw [mpHelper_sorted e zs sh ge l ls hsort x y]
      have := chain_td e zs sh ge hr (l :: ls) hsort hb x y beta hray (l :: ls) []
        { X := x * e.arcsecToRad * e.dist l.z, Y := y * e.arcsecToRad * e.dist l.z,
          thx := x, thy := y, td := 0 } rfl
        ⟨by
          simp only [List.head?_cons, Option.map_some, Option.getD_some, h0.1, h0.2]
          constructor
          · linear_combination x * e.dist l.z * hir
          · linear_combination y * e.dist l.z * hir, by simp, by simp⟩
      simp only [Option.map_some, this, zero_add]
      rfl
    have hsum : ∀ f g : MPlane K × K → K, (pairs.map fun p => f p + g p).sum
        = (pairs.map f).sum + (pairs.map g).sum := by
      intro f g
      induction pairs with
      | nil => simp
      | cons p ps ih => simp only [List.map_cons, List.sum_cons, ih]; ring
    have hneg : (pairs.map fun p => -(tau p * bet p * (1 / e.radToArcsec) ^ 2
      * p.1.psi (beta p.1.z).1 (beta p.1.z).2)).sum = -sha := by
      simp only [sha]
      induction pairs with
      | nil => simp
      | cons p ps ih => simp only [List.map_cons, List.sum_cons, ih]; ring
    refine ⟨?_, ?_, ?_⟩
    · simp only [mpTimeDelay, Bool.or_true, if_true, htd]
      simp only [delayTerm, Bool.false_eq_true, if_false, if_true, zero_add]
      rfl
    · simp only [mpTimeDelay, Bool.or_false, if_true, htd]
      rw [← hneg]
      simp only [delayTerm, Bool.false_eq_true, if_false, if_true, add_zero]
      rfl
    · simp only [mpTimeDelay, Bool.or_true, if_true, htd]
      rw [sub_eq_neg_add, ← hneg, ← hsum]
      simp only [delayTerm, if_true]
      rfl

/-- C57: asking for neither contribution is an error. -/
theorem C57_neither (e : MPEnv K) (zs : K) (lenses : List (MPlane K)) (x y : K) :
    mpTimeDelay e zs false false lenses x y = none := rfl

/-- A three-plane system with its total delay. -/
example : mpTimeDelay exEnv 4 true true [exPlane 1 1, exPlane 2 (1 / 2), exPlane 3 3] 8 16
    = some (695 / 24) := by decide +kernel

end Caustics
