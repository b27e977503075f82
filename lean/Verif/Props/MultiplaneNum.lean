import Verif.Lemmas.MultiplaneNum
import Verif.Props.Multiplane
import Mathlib.Topology.Algebra.Order.Field
import Mathlib.Topology.Instances.Real.Lemmas
import Mathlib.Tactic.Positivity

/-!
C106: lenses at one redshift in a `Multiplane` are one `SinglePlane`.
-/

namespace Caustics

variable {K : Type} [Field K] [LinearOrder K]

/-! ### Rays -/

/-- Rays do not tell the lenses of a plane listed one by one from a `SinglePlane` of them, wherever the plane is and
whatever comes before and after, infinities and NaN included. -/
theorem C106_rays (e : MPEnv K) (zs z : K) (pre post : List (MPlaneO K)) (g : List (ThinLensO K)) (hg : g ≠ [])
    (hz : ∀ l ∈ g, l.z = z) (hs : SortedByZO (pre ++ (g.map (ThinLensO.plane e zs) ++ post))) (x y : K) :
    mpRaytraceO e zs (pre ++ (g.map (ThinLensO.plane e zs) ++ post)) x y =
      mpRaytraceO e zs (pre ++ (singlePlaneO z g).plane e zs :: post) x y := by
  cases g with
  | nil => exact absurd rfl hg
  | cons l g =>
    have hl := hz l (by simp)
    have hg' : ∀ m ∈ g, m.z = z := fun m hm => hz m (by simp [hm])
    have hnext : nextZ zs ((l :: g).map (ThinLensO.plane e zs) ++ post) = nextZ zs ((singlePlaneO z (l :: g)).plane e zs :: post) := hl
    have hr := mpRays_append e zs pre _ _ hnext fun r => by
      rw [List.map_cons, List.cons_append, mpRays_group e zs z (l.plane e zs) (g.map (ThinLensO.plane e zs)) post hl
        (fun m hm => by
          obtain ⟨m', hm', rfl⟩ := List.mem_map.1 hm
          exact hg' m' hm') r, foldl_merge2_thin e zs z l g hl hg']
    have hs' : SortedByZO (pre ++ (singlePlaneO z (l :: g)).plane e zs :: post) := by
      refine List.Pairwise.sublist ?_ hs
      rw [List.map_append, List.map_append]
      refine List.Sublist.append (List.Sublist.refl _) ?_
      have h1 : ((singlePlaneO z (l :: g)).plane e zs).z = (l.plane e zs).z := hl.symm
      simp only [List.map_cons, List.cons_append, h1, List.map_append]
      exact (List.sublist_append_right _ _).cons_cons _
    cases pre with
    | nil =>
      simp only [List.nil_append, List.map_cons, List.cons_append] at hr hs hs' ⊢
      rw [mpRaytraceO_sorted e zs _ _ hs, mpRaytraceO_sorted e zs _ _ hs', ← hr]
      rw [show ((singlePlaneO z (l :: g)).plane e zs).z = (l.plane e zs).z from hl.symm]
    | cons p pre =>
      simp only [List.cons_append] at hr hs hs' ⊢
      rw [mpRaytraceO_sorted e zs _ _ hs, mpRaytraceO_sorted e zs _ _ hs', ← hr]

/-- Plain functions as lenses. -/
def MPlane.lift (l : MPlane K) : MPlaneO K := ⟨l.z, fun x y => some (l.alpha x y), fun x y => some (l.psi x y)⟩

/-- Without divisions by zero this is the ray of C16. -/
theorem C106_rays_finite (e : MPEnv K) (zs : K) (lenses : List (MPlane K)) (hs : SortedByZ lenses)
    (hD : ∀ l ∈ lenses, e.dist l.z ≠ 0) (hzs : e.dist zs ≠ 0) (hne : lenses ≠ []) (x y : K) :
    mpRaytraceO e zs (lenses.map MPlane.lift) x y = some (mpRaytrace e zs lenses x y) := by
  have key : ∀ (ls : List (MPlane K)) (s : MPState K), (∀ l ∈ ls, e.dist l.z ≠ 0) →
      mpRays e zs (ls.map MPlane.lift) ⟨s.X, s.Y, s.thx, s.thy⟩ =
        some ⟨(mpChain e zs false false ls s).X, (mpChain e zs false false ls s).Y, (mpChain e zs false false ls s).thx,
          (mpChain e zs false false ls s).thy⟩ := by
    intro ls
    induction ls with
    | nil => intro s _; rfl
    | cons l ls ih =>
      intro s h
      have h1 := h l (by simp)
      have h2 : nextZ zs (ls.map MPlane.lift) = (ls.head?.map MPlane.z).getD zs := by
        cases ls <;> rfl
      rw [List.map_cons, mpRays, h2, mpChain, ← ih _ fun m hm => h m (by simp [hm])]
      have h3 : (MPlane.lift l).z = l.z := rfl
      simp only [mpRayStepO, mpPosO, quo, h3, h1, if_false, Option.bind_eq_bind, Option.bind_some, Option.pure_def]
      rfl
  cases lenses with
  | nil => exact absurd rfl hne
  | cons l ls =>
    have hs' : SortedByZO ((l :: ls).map MPlane.lift) := by
      unfold SortedByZO
      rw [List.map_map, List.pairwise_map]
      exact hs
    rw [List.map_cons] at hs' ⊢
    rw [mpRaytraceO_sorted e zs _ _ hs', mpRaytrace, mpHelper_sorted e zs false false l ls hs x y, ← List.map_cons]
    have := key (l :: ls) { X := x * e.arcsecToRad * e.dist l.z, Y := y * e.arcsecToRad * e.dist l.z, thx := x, thy := y, td := 0 } hD
    simp only [] at this
    rw [show (MPlane.lift l).z = l.z from rfl, this]
    simp [quo, hzs]

/-! ### Time delays -/

/-- The same for the time delay would be: -/
def C106_delay_statement (e : MPEnv K) : Prop :=
  ∀ (zs z : K) (shapiro geometric : Bool) (pre post : List (MPlaneO K)) (g : List (ThinLensO K)), g ≠ [] →
    (∀ l ∈ g, l.z = z) → SortedByZO (pre ++ (g.map (ThinLensO.plane e zs) ++ post)) → ∀ x y : K,
    mpTimeDelayO e zs shapiro geometric (pre ++ (g.map (ThinLensO.plane e zs) ++ post)) x y =
      mpTimeDelayO e zs shapiro geometric (pre ++ (singlePlaneO z g).plane e zs :: post) x y

theorem mpTauO_none (e : MPEnv K) (l : MPlaneO K) (z : K) (h : e.dist l.z = e.dist z) : mpTauO e l z = none := by
  simp [mpTauO, quo, MPEnv.dist12, h]

theorem mpChainO_td_none (e : MPEnv K) (zs : K) (sh ge : Bool) (ls : List (MPlaneO K)) (s : MPStateO K) (h : s.td = none) :
    (mpChainO e zs sh ge ls s).td = none := by
  induction ls generalizing s with
  | nil => exact h
  | cons l ls ih =>
    refine ih _ ?_
    cases sh <;> cases ge <;> simp [mpBodyO, addO, h]

/-- Two neighbouring planes at the same distance make the time delay infinite or NaN: for all lenses, positions and
contributions. -/
theorem C106_delay_nan_fails (e : MPEnv K) (zs : K) (shapiro geometric : Bool) (hc : shapiro || geometric)
    (pre post : List (MPlaneO K)) (a b : MPlaneO K) (hab : e.dist a.z = e.dist b.z)
    (hs : SortedByZO (pre ++ a :: b :: post)) (x y : K) :
    mpTimeDelayO e zs shapiro geometric (pre ++ a :: b :: post) x y = some none := by
  have key : ∀ (pre : List (MPlaneO K)) (s : MPStateO K),
      (mpChainO e zs shapiro geometric (pre ++ a :: b :: post) s).td = none := by
    intro pre
    induction pre with
    | nil =>
      intro s
      rw [List.nil_append, mpChainO]
      refine mpChainO_td_none e zs shapiro geometric _ _ ?_
      have h1 : ∀ r, mpShapiroO e zs a b.z r = none := fun r => by simp [mpShapiroO, mpTauO_none e a b.z hab]
      have h2 : ∀ r, mpGeometricO e a b.z r = none := fun r => by simp [mpGeometricO, mpTauO_none e a b.z hab]
      have h3 : nextZ zs (b :: post) = b.z := rfl
      rw [h3]
      cases shapiro <;> cases geometric <;> simp_all [mpBodyO, addO]
    | cons l pre ih => exact fun s => ih _
  rw [mpTimeDelayO, if_pos hc]
  cases pre with
  | nil =>
    simp only [List.nil_append] at hs ⊢
    rw [mpHelperO_sorted e zs _ _ _ _ hs]
    exact congrArg some (key [] _)
  | cons l pre =>
    rw [List.cons_append] at hs ⊢
    rw [mpHelperO_sorted e zs _ _ _ _ hs]
    exact congrArg some (key (l :: pre) _)

/-- A thin lens with deflection `k * (x, y)`. -/
def exThinO (z k : ℚ) : ThinLensO ℚ := ⟨z, fun x y => some (k * x, k * y), fun x y => some (k * (x * x + y * y) / 2)⟩

/-- So it fails: two sheets at redshift 1 listed one by one, and combined. -/
theorem C106_delay_fails : ¬ C106_delay_statement exEnv := by
  intro h
  have := h 4 1 true true [] [] [exThinO 1 (1 / 4), exThinO 1 (1 / 2)] (by simp) (by simp [exThinO])
    (by simp [SortedByZO, ThinLensO.plane, exThinO]) 8 16
  revert this
  decide +kernel

/-- Both: no number for the list, a number for the plane; the same ray. -/
example :
    mpTimeDelayO exEnv 4 true true [(exThinO 1 (1 / 4)).plane exEnv 4, (exThinO 1 (1 / 2)).plane exEnv 4] 8 16 = some none ∧
    mpTimeDelayO exEnv 4 true true [(singlePlaneO 1 [exThinO 1 (1 / 4), exThinO 1 (1 / 2)]).plane exEnv 4] 8 16
      = some (some (10 / 3)) ∧
    mpRaytraceO exEnv 4 [(exThinO 1 (1 / 4)).plane exEnv 4, (exThinO 1 (1 / 2)).plane exEnv 4] 8 16 = some (some (2, 4)) := by
  decide +kernel

/-- What remains of it: planes at different distances, one lens each.  Then the time delay is the number of C57. -/
theorem C106_delay_partial (e : MPEnv K) (zs : K) (shapiro geometric : Bool) (lenses : List (MPlane K))
    (hs : SortedByZ lenses) (hD : ∀ l ∈ lenses, e.dist l.z ≠ 0) (hzs : e.dist zs ≠ 0) (hne : lenses ≠ [])
    (hc : e.cMpcS ≠ 0) (hday : e.daysToSeconds ≠ 0)
    (hd : (lenses.map fun l => e.dist l.z).Pairwise (· ≠ ·)) (hds : ∀ l ∈ lenses, e.dist l.z ≠ e.dist zs) (x y : K) :
    mpTimeDelayO e zs shapiro geometric (lenses.map MPlane.lift) x y =
      (mpTimeDelay e zs shapiro geometric lenses x y).map some := by
  have key : ∀ (ls : List (MPlane K)) (s : MPState K), (∀ l ∈ ls, e.dist l.z ≠ 0) →
      (ls.map fun l => e.dist l.z).Pairwise (· ≠ ·) → (∀ l ∈ ls, e.dist l.z ≠ e.dist zs) →
      (mpChainO e zs shapiro geometric (ls.map MPlane.lift) ⟨some ⟨s.X, s.Y, s.thx, s.thy⟩, some s.td⟩).td =
        some (mpChain e zs shapiro geometric ls s).td := by
    intro ls
    induction ls with
    | nil => intro s _ _ _; rfl
    | cons l ls ih =>
      intro s h hp hz
      have h1 := h l (by simp)
      have h2 : nextZ zs (ls.map MPlane.lift) = (ls.head?.map MPlane.z).getD zs := by
        cases ls <;> rfl
      rw [List.map_cons, List.pairwise_cons] at hp
      have hls := hz l (by simp)
      have hn : e.dist ((ls.head?.map MPlane.z).getD zs) ≠ 0 ∧ e.dist l.z ≠ e.dist ((ls.head?.map MPlane.z).getD zs) := by
        cases ls with
        | nil => exact ⟨hzs, hls⟩
        | cons m ls => exact ⟨h m (by simp), hp.1 _ (by simp)⟩
      rw [List.map_cons, mpChainO, h2, mpChain, ← ih _ (fun m hm => h m (by simp [hm])) hp.2 fun m hm => hz m (by simp [hm])]
      generalize (ls.head?.map MPlane.z).getD zs = zn at hn
      obtain ⟨hn0, hn1⟩ := hn
      have h3 : (MPlane.lift l).z = l.z := rfl
      have d1 : e.dist zn - e.dist l.z ≠ 0 := sub_ne_zero.2 hn1.symm
      have d2 : e.dist zs - e.dist l.z ≠ 0 := sub_ne_zero.2 hls.symm
      congr 2
      simp only [mpBodyO, mpBody, mpRayStepO, mpShapiroO, mpGeometricO, mpTauO, mpPosO, quo, addO, MPEnv.dist12, h3, h1, hn0, d1, d2,
        hc, hday, mul_eq_zero, or_self, if_false, Option.bind_eq_bind, Option.bind_some, Option.pure_def]
      cases shapiro <;> cases geometric <;> simp [MPlane.lift]
  rw [mpTimeDelayO, mpTimeDelay]
  split_ifs
  · cases lenses with
    | nil => exact absurd rfl hne
    | cons l ls =>
      have hs' : SortedByZO ((l :: ls).map MPlane.lift) := by
        unfold SortedByZO
        rw [List.map_map, List.pairwise_map]
        exact hs
      rw [List.map_cons] at hs' ⊢
      rw [mpHelperO_sorted e zs _ _ _ _ hs', mpHelper_sorted e zs _ _ l ls hs x y]
      have := key (l :: ls) { X := x * e.arcsecToRad * e.dist l.z, Y := y * e.arcsecToRad * e.dist l.z, thx := x, thy := y, td := 0 }
        hD hd hds
      rw [List.map_cons] at this
      exact congrArg some this
  · rfl

/-- Lenses of which no two share a distance: a number, not NaN, for a two-plane system. -/
example : mpTimeDelayO exEnv 4 true true ([exPlane 1 1, exPlane 2 (1 / 2), exPlane 3 3].map MPlane.lift) 8 16 =
    some (some (695 / 24)) := by decide +kernel

/-! ### Planes that come close -/

/-- Two planes that approach one another: the time delay grows without bound, though two lenses in the same plane have a
finite one.  The geometric part divides `|α|²` by the distance between the planes. -/
theorem C106_close_fails (e : MPEnv ℝ) (zs : ℝ) (shapiro : Bool) (a : MPlane ℝ) (alpha : ℝ → ℝ → ℝ × ℝ) (psi : ℝ → ℝ → ℝ)
    (x y : ℝ) (hr : e.radToArcsec ≠ 0) (hc : 0 < e.cMpcS) (hday : 0 < e.daysToSeconds) (hz : 0 < 1 + a.z)
    (hcont : ContinuousAt e.dist a.z) (hD : 0 < e.dist a.z) (hmono : ∀ z, a.z < z → e.dist a.z < e.dist z)
    (hzs : a.z < zs) (ha : a.alpha x y ≠ 0)
    (halpha : ContinuousAt (fun p : ℝ × ℝ => alpha p.1 p.2) (x, y)) (hpsi : ContinuousAt (fun p : ℝ × ℝ => psi p.1 p.2) (x, y)) :
    ∃ delay : ℝ → ℝ, (∀ z, a.z < z → z < zs → mpTimeDelay e zs shapiro true [a, ⟨z, alpha, psi⟩] x y = some (delay z)) ∧
      Filter.Tendsto delay (nhdsWithin a.z (Set.Ioi a.z)) Filter.atTop := by
  have hDs := hmono zs hzs
  set D := e.dist a.z with hDdef
  set k := e.arcsecToRad with hk
  have hk0 : 0 < k ^ 2 := by
    have : k ≠ 0 := by rw [hk, MPEnv.arcsecToRad]; positivity
    positivity
  have hkr : k * e.radToArcsec = 1 := by rw [hk, MPEnv.arcsecToRad, one_div, inv_mul_cancel₀ hr]
  set al := a.alpha x y with hal
  have hpos : 0 < al.1 ^ 2 + al.2 ^ 2 := by
    by_contra h
    have h1 : al.1 = 0 := by nlinarith [sq_nonneg al.1, sq_nonneg al.2]
    have h2 : al.2 = 0 := by nlinarith [sq_nonneg al.1, sq_nonneg al.2]
    exact ha (Prod.ext h1 h2)
  let tau : ℝ → ℝ := fun z => (1 + a.z) * D * e.dist z / ((e.dist z - D) * e.cMpcS) / e.daysToSeconds
  let px : ℝ → ℝ := fun z => (x * k * D + (e.dist z - D) * (x - al.1) * k) * e.radToArcsec / e.dist z
  let py : ℝ → ℝ := fun z => (y * k * D + (e.dist z - D) * (y - al.2) * k) * e.radToArcsec / e.dist z
  let tau2 : ℝ → ℝ := fun z => (1 + z) * e.dist z * e.dist zs / ((e.dist zs - e.dist z) * e.cMpcS) / e.daysToSeconds
  let s1 : ℝ := (1 + a.z) * D * e.dist zs / ((e.dist zs - D) * e.cMpcS) / e.daysToSeconds * k ^ 2 * a.psi x y
  let beta2 : ℝ → ℝ := fun z => (e.dist zs - e.dist z) * e.dist zs / (e.dist zs * (e.dist zs - e.dist z))
  let sha2 : ℝ → ℝ := fun z => -tau2 z * beta2 z * k ^ 2 * psi (px z) (py z)
  let geo2 : ℝ → ℝ := fun z => tau2 z * k ^ 2 * (1 / 2) * ((alpha (px z) (py z)).1 ^ 2 + (alpha (px z) (py z)).2 ^ 2)
  let rest : ℝ → ℝ := fun z => (if shapiro then -s1 + sha2 z else 0) + geo2 z
  refine ⟨fun z => tau z * (k ^ 2 * (1 / 2) * (al.1 ^ 2 + al.2 ^ 2)) + rest z, fun z h1 h2 => ?_, ?_⟩
  · have hs : SortedByZ [a, ⟨z, alpha, psi⟩] := by simp [SortedByZ, h1.le]
    have hDz := hmono z h1
    rw [mpTimeDelay, Bool.or_true, if_pos rfl, mpHelper_sorted e zs shapiro true a _ hs x y]
    have e1 : x * k * D * e.radToArcsec / D = x := by
      rw [mul_right_comm, mul_div_assoc, div_self hD.ne', mul_one, mul_assoc, hkr, mul_one]
    have e2 : y * k * D * e.radToArcsec / D = y := by
      rw [mul_right_comm, mul_div_assoc, div_self hD.ne', mul_one, mul_assoc, hkr, mul_one]
    have hz0 : e.dist z ≠ 0 := (hD.trans hDz).ne'
    have hs0 : e.dist zs - D ≠ 0 := (sub_pos.2 hDs).ne'
    have hzD : e.dist z - D ≠ 0 := (sub_pos.2 hDz).ne'
    simp only [mpChain, mpBody, List.head?_cons, List.head?_nil, Option.map_some, Option.map_none, Option.getD_some,
      Option.getD_none, ← hDdef, ← hk, e1, e2, ← hal, if_true, MPEnv.dist12]
    congr 1
    have hsh : (if shapiro = true then
        0 + -((1 + a.z) * D * e.dist z / ((e.dist z - D) * e.cMpcS) / e.daysToSeconds) *
          ((e.dist z - D) * e.dist zs / (e.dist z * (e.dist zs - D))) * k ^ 2 * a.psi x y else (0 : ℝ)) =
        if shapiro then -s1 else 0 := by
      split_ifs
      · simp only [s1]
        field_simp
        ring
      · rfl
    rw [hsh]
    simp only [rest, geo2, sha2, tau, tau2, beta2, px, py]
    cases shapiro <;> simp <;> ring
  · have hd : Filter.Tendsto e.dist (nhdsWithin a.z (Set.Ioi a.z)) (nhds D) := hcont.tendsto.mono_left nhdsWithin_le_nhds
    have hid : Filter.Tendsto (fun z : ℝ => z) (nhdsWithin a.z (Set.Ioi a.z)) (nhds a.z) := nhdsWithin_le_nhds
    have hs0 : e.dist zs - D ≠ 0 := (sub_pos.2 hDs).ne'
    have hDs0 : e.dist zs ≠ 0 := (hD.trans hDs).ne'
    have hgap : Filter.Tendsto (fun z => (e.dist z - D) * e.cMpcS) (nhdsWithin a.z (Set.Ioi a.z)) (nhdsWithin 0 (Set.Ioi 0)) := by
      refine tendsto_nhdsWithin_iff.2 ⟨?_, ?_⟩
      · have := (hd.sub_const D).mul_const e.cMpcS
        simpa using this
      · filter_upwards [self_mem_nhdsWithin] with z hz'
        exact mul_pos (sub_pos.2 (hmono z hz')) hc
    have htau : Filter.Tendsto tau (nhdsWithin a.z (Set.Ioi a.z)) Filter.atTop := by
      have h1 : Filter.Tendsto (fun z => (1 + a.z) * D * e.dist z) (nhdsWithin a.z (Set.Ioi a.z)) (nhds ((1 + a.z) * D * D)) :=
        hd.const_mul _
      have h2 := Filter.Tendsto.pos_mul_atTop (by positivity) h1 (tendsto_inv_nhdsGT_zero.comp hgap)
      exact h2.atTop_div_const hday
    have hpx : Filter.Tendsto px (nhdsWithin a.z (Set.Ioi a.z)) (nhds x) := by
      have h := ((((hd.sub_const D).mul_const (x - al.1)).mul_const k).const_add (x * k * D)).mul_const e.radToArcsec |>.div hd hD.ne'
      refine (congrArg (fun t => Filter.Tendsto _ _ (nhds t)) ?_).mp h
      rw [sub_self, zero_mul, zero_mul, add_zero, mul_right_comm, mul_div_assoc, div_self hD.ne', mul_one, mul_assoc, hkr, mul_one]
    have hpy : Filter.Tendsto py (nhdsWithin a.z (Set.Ioi a.z)) (nhds y) := by
      have h := ((((hd.sub_const D).mul_const (y - al.2)).mul_const k).const_add (y * k * D)).mul_const e.radToArcsec |>.div hd hD.ne'
      refine (congrArg (fun t => Filter.Tendsto _ _ (nhds t)) ?_).mp h
      rw [sub_self, zero_mul, zero_mul, add_zero, mul_right_comm, mul_div_assoc, div_self hD.ne', mul_one, mul_assoc, hkr, mul_one]
    have hpxy := hpx.prodMk_nhds hpy
    have hA := halpha.tendsto.comp hpxy
    have hP := hpsi.tendsto.comp hpxy
    have htau2 : Filter.Tendsto tau2 (nhdsWithin a.z (Set.Ioi a.z)) (nhds (tau2 a.z)) :=
      ((((hid.const_add 1).mul hd).mul_const _).div ((hd.const_sub _).mul_const _) (mul_ne_zero hs0 hc.ne')).div_const _
    have hbeta2 : Filter.Tendsto beta2 (nhdsWithin a.z (Set.Ioi a.z)) (nhds (beta2 a.z)) :=
      ((hd.const_sub _).mul_const _).div ((hd.const_sub _).const_mul _) (mul_ne_zero hDs0 hs0)
    have hrest : ∃ L, Filter.Tendsto rest (nhdsWithin a.z (Set.Ioi a.z)) (nhds L) := by
      have hg : Filter.Tendsto geo2 _ _ := ((htau2.mul_const (k ^ 2)).mul_const (1 / 2)).mul
        (((continuous_fst.tendsto _).comp hA |>.pow 2).add ((continuous_snd.tendsto _).comp hA |>.pow 2))
      have hsh : Filter.Tendsto sha2 _ _ := ((htau2.neg.mul hbeta2).mul_const (k ^ 2)).mul hP
      cases shapiro
      · exact ⟨_, (tendsto_const_nhds (x := (0 : ℝ))).add hg⟩
      · exact ⟨_, (hsh.const_add (-s1)).add hg⟩
    obtain ⟨L, hL⟩ := hrest
    exact (htau.atTop_mul_const (by positivity)).atTop_add hL

/-- Its hypotheses hold for sheets. -/
example : ∃ delay : ℝ → ℝ,
    (∀ z, 1 < z → z < 4 → mpTimeDelay (⟨fun z => z, 4, 2, 1⟩ : MPEnv ℝ) 4 true true
      [⟨1, fun x y => (x / 4, y / 4), fun x y => x ^ 2 + y ^ 2⟩, ⟨z, fun x y => (x / 2, y / 2), fun x y => x ^ 2 + y ^ 2⟩] 8 16 =
        some (delay z)) ∧ Filter.Tendsto delay (nhdsWithin 1 (Set.Ioi 1)) Filter.atTop :=
  C106_close_fails ⟨fun z => z, 4, 2, 1⟩ 4 true ⟨1, fun x y => (x / 4, y / 4), fun x y => x ^ 2 + y ^ 2⟩ _ _ 8 16
    (by norm_num) (by norm_num) (by norm_num) (by norm_num) continuousAt_id (by norm_num) (fun z h => h) (by norm_num)
    (by simp) (by fun_prop) (by fun_prop)

/-! ### A lens in the source plane -/

/-- A thin lens at the redshift of the source does not bend the ray at all: it is on the source. -/
def C106_source_statement (e : MPEnv K) : Prop :=
  ∀ (zs : K) (pre : List (MPlaneO K)) (l : ThinLensO K), pre ≠ [] → l.z = zs → SortedByZO (pre ++ [l.plane e zs]) →
    ∀ x y : K, mpRaytraceO e zs (pre ++ [l.plane e zs]) x y = mpRaytraceO e zs pre x y

/-- It does not only bend it, it loses it: `d_s / d_ls` divides by zero, and every ray is NaN. -/
theorem C106_source_nan_fails (e : MPEnv K) (zs : K) (pre post : List (MPlaneO K)) (l : ThinLensO K) (hl : l.z = zs)
    (hs : SortedByZO (pre ++ l.plane e zs :: post)) (x y : K) :
    mpRaytraceO e zs (pre ++ l.plane e zs :: post) x y = some none := by
  have h0 : ∀ a b, (l.plane e zs).alpha a b = none := fun a b => by
    simp [ThinLensO.plane, ThinLensO.physical, quo, MPEnv.angDist12, hl]
  have key : ∀ (pre : List (MPlaneO K)) (r : MPRay K), mpRays e zs (pre ++ l.plane e zs :: post) r = none := by
    intro pre
    induction pre with
    | nil =>
      intro r
      rw [List.nil_append, mpRays, mpRayStepO]
      simp only [h0]
      cases mpPosO e (l.plane e zs) r <;> rfl
    | cons p pre ih =>
      intro r
      rw [List.cons_append, mpRays]
      cases mpRayStepO e p (nextZ zs (pre ++ l.plane e zs :: post)) r with
      | none => rfl
      | some r' => exact ih r'
  cases pre with
  | nil =>
    have := key []
    simp only [List.nil_append] at hs this ⊢
    rw [mpRaytraceO_sorted e zs _ _ hs, this]
    rfl
  | cons p pre =>
    have := key (p :: pre)
    simp only [List.cons_append] at hs this ⊢
    rw [mpRaytraceO_sorted e zs _ _ hs, this]
    rfl

theorem C106_source_fails : ¬ C106_source_statement exEnv := by
  intro h
  have := h 4 [(exThinO 1 (1 / 4)).plane exEnv 4] (exThinO 4 1) (by simp) rfl
    (by simp [SortedByZO, ThinLensO.plane, exThinO]) 8 16
  revert this
  decide +kernel

/-- The time delay of a thin lens with the failures of its parts: a number exactly when the lens and source are at different
distances (and the constants are not zero) and the parts asked for are numbers; then the one of `ThinLens.time_delay`. -/
theorem C52_checked (e : MPEnv K) (zs : K) (shapiro geometric : Bool) (l : ThinLensO K) (m : ThinLensFn K) (x y : K)
    (hz : l.z = m.z) (hd : e.daysToSeconds ≠ 0)
    (hpsi : shapiro = true → l.psi x y = some (m.psi x y))
    (hred : geometric = true → l.reduced x y = some (m.reduced x y)) :
    l.timeDelay e zs shapiro geometric x y =
      if e.angDist12 m.z zs = 0 then none else some (m.timeDelay e zs shapiro geometric x y) := by
  simp only [ThinLensO.timeDelay, ThinLensFn.timeDelay, MPEnv.arcsec2ToDays, hz, quo, hd]
  cases shapiro <;> cases geometric <;> by_cases h0 : e.angDist12 m.z zs = 0 <;>
    simp [h0, hpsi, hred]

/-- Parts that are not numbers make the delay none, when they are asked for. -/
theorem C52_unavailable (e : MPEnv K) (zs : K) (l : ThinLensO K) (x y : K) :
    (∀ geometric, l.psi x y = none → l.timeDelay e zs true geometric x y = none) ∧
    ∀ shapiro, l.reduced x y = none → l.timeDelay e zs shapiro true x y = none := by
  refine ⟨fun g h => by simp [ThinLensO.timeDelay, h], fun s h => ?_⟩
  cases s <;> cases hp : l.psi x y <;> simp [ThinLensO.timeDelay, h, hp]

/-- A lens in front of its source has a delay, the same lens at the redshift of the source has none. -/
example : ((exThinO 1 (1 / 4)).timeDelay exEnv 4 true true 8 16).isSome = true ∧
    (exThinO 4 (1 / 4)).timeDelay exEnv 4 true true 8 16 = none := by
  decide +kernel

end Caustics
