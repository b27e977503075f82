import Verif.Model.MultiplaneNum
import Verif.Lemmas.Multiplane
import Mathlib.Data.List.Induction

namespace Caustics

variable {K : Type} [Field K] [LinearOrder K]

/-- Redshift of the plane after which the list starts. -/
def nextZ (zs : K) (ls : List (MPlaneO K)) : K := (ls.head?.map MPlaneO.z).getD zs

/-- The loop over a list in order. -/
def mpChainO (e : MPEnv K) (zs : K) (sh ge : Bool) : List (MPlaneO K) → MPStateO K → MPStateO K
  | [], s => s
  | l :: ls, s => mpChainO e zs sh ge ls (mpBodyO e zs sh ge l (nextZ zs ls) s)

/-- The ray alone. -/
def mpRays (e : MPEnv K) (zs : K) : List (MPlaneO K) → MPRay K → Option (MPRay K)
  | [], r => some r
  | l :: ls, r => (mpRayStepO e l (nextZ zs ls) r).bind (mpRays e zs ls)

/-- Listed in order. -/
def SortedByZO (lenses : List (MPlaneO K)) : Prop := (lenses.map MPlaneO.z).Pairwise (· ≤ ·)

theorem lensPlanes_pairwise (zs : List K) (h : zs.Pairwise (· ≤ ·)) : lensPlanes zs = List.range zs.length := by
  unfold lensPlanes
  have hp : zs.zipIdx.Pairwise (fun p q => p.1 ≤ q.1) := by
    rw [List.pairwise_iff_getElem]
    intro i j hi hj hij
    simp only [List.getElem_zipIdx]
    exact (List.pairwise_iff_getElem.mp h) i j (by simpa using hi) (by simpa using hj) hij
  rw [hp.insertionSort_eq, List.zipIdx_map_snd]
  simp [List.range_eq_range']

theorem mpLoopO_sorted (e : MPEnv K) (zs : K) (sh ge : Bool) (lenses : List (MPlaneO K)) (k : ℕ) (hk : k ≤ lenses.length)
    (s : MPStateO K) :
    mpLoopO e zs sh ge lenses (lenses.length - 1) (List.range' (lenses.length - k) k) s
      = some (mpChainO e zs sh ge (lenses.drop (lenses.length - k)) s) := by
  induction k generalizing s with
  | zero => simp [mpLoopO, mpChainO]
  | succ k ih =>
    have hlt : lenses.length - (k + 1) < lenses.length := by omega
    rw [List.range'_succ]
    have hnext : lenses.length - (k + 1) + 1 = lenses.length - k := by omega
    rw [hnext]
    unfold mpLoopO
    rw [List.getElem?_eq_getElem hlt]
    have hdrop : lenses.drop (lenses.length - (k + 1))
        = lenses[lenses.length - (k + 1)] :: lenses.drop (lenses.length - k) := by
      rw [List.drop_eq_getElem_cons hlt, hnext]
    rw [hdrop, mpChainO]
    by_cases hk0 : k = 0
    · subst hk0
      have h1 : ¬ (lenses.length - (0 + 1) ≠ lenses.length - 1) := by omega
      rw [if_neg h1]
      simp only
      rw [ih (by omega)]
      simp [nextZ]
    · have h1 : lenses.length - (k + 1) ≠ lenses.length - 1 := by omega
      have h2 : lenses.length - k < lenses.length := by omega
      rw [if_pos h1, hnext]
      have : (lenses.map MPlaneO.z)[lenses.length - k]? = some lenses[lenses.length - k].z := by
        simp [h2]
      rw [this]
      simp only
      rw [ih (by omega)]
      congr 3
      rw [nextZ, List.head?_drop, List.getElem?_eq_getElem h2]
      rfl

/-- On an ordered, non-empty list the helper runs the chain. -/
theorem mpHelperO_sorted (e : MPEnv K) (zs : K) (sh ge : Bool) (l : MPlaneO K) (ls : List (MPlaneO K))
    (h : SortedByZO (l :: ls)) (x y : K) :
    mpHelperO e zs sh ge (l :: ls) x y = some (
      let s := mpChainO e zs sh ge (l :: ls)
        ⟨some { X := x * e.arcsecToRad * e.dist l.z, Y := y * e.arcsecToRad * e.dist l.z, thx := x, thy := y }, some 0⟩
      (s.ray.bind fun r => do
        return (← quo (r.X * e.radToArcsec) (e.dist zs), ← quo (r.Y * e.radToArcsec) (e.dist zs)), s.td)) := by
  unfold mpHelperO
  simp only [lensPlanes_pairwise _ h, List.length_map]
  have hlen : (l :: ls).length = ls.length + 1 := rfl
  have h1 : (List.range (l :: ls).length).head? = some 0 := by
    rw [hlen, List.range_succ_eq_map]; rfl
  have h2 : (List.range (l :: ls).length).getLast? = some ((l :: ls).length - 1) := by
    rw [hlen, List.range_succ]; simp
  rw [h1, h2]
  have h3 : ((l :: ls).map MPlaneO.z)[0]? = some l.z := rfl
  simp only [h3]
  have h4 := mpLoopO_sorted e zs sh ge (l :: ls) (l :: ls).length le_rfl
    ⟨some { X := x * e.arcsecToRad * e.dist l.z, Y := y * e.arcsecToRad * e.dist l.z, thx := x, thy := y }, some 0⟩
  rw [Nat.sub_self, ← List.range_eq_range', List.drop_zero] at h4
  rw [h4]

theorem mpChainO_ray (e : MPEnv K) (zs : K) (sh ge : Bool) (ls : List (MPlaneO K)) (s : MPStateO K) :
    (mpChainO e zs sh ge ls s).ray = s.ray.bind (mpRays e zs ls) := by
  induction ls generalizing s with
  | nil => cases h : s.ray <;> simp [mpChainO, mpRays, h]
  | cons l ls ih =>
    rw [mpChainO, ih]
    simp only [mpBodyO, Option.bind_assoc]
    rfl

/-- On an ordered list `raytrace` follows the ray. -/
theorem mpRaytraceO_sorted (e : MPEnv K) (zs : K) (l : MPlaneO K) (ls : List (MPlaneO K)) (h : SortedByZO (l :: ls)) (x y : K) :
    mpRaytraceO e zs (l :: ls) x y = some (
      (mpRays e zs (l :: ls)
        { X := x * e.arcsecToRad * e.dist l.z, Y := y * e.arcsecToRad * e.dist l.z, thx := x, thy := y }).bind fun r => do
        return (← quo (r.X * e.radToArcsec) (e.dist zs), ← quo (r.Y * e.radToArcsec) (e.dist zs))) := by
  rw [mpRaytraceO, mpHelperO_sorted e zs false false l ls h x y]
  simp only [mpChainO_ray, Option.map_some, Option.bind_some]

/-! ### Two planes at the same redshift -/

/-- Both lenses in one plane. -/
def merge2 (a b : MPlaneO K) : MPlaneO K where
  z := a.z
  alpha x y := do
    let p ← a.alpha x y
    let q ← b.alpha x y
    return (p.1 + q.1, p.2 + q.2)
  psi x y := addO (a.psi x y) (b.psi x y)

theorem merge2_step (e : MPEnv K) (a b : MPlaneO K) (h : a.z = b.z) (zn : K) (r : MPRay K) :
    (mpRayStepO e a b.z r).bind (mpRayStepO e b zn) = mpRayStepO e (merge2 a b) zn r := by
  unfold mpRayStepO mpPosO quo
  rw [h]
  by_cases hd : e.dist b.z = 0
  · simp [hd, merge2, h]
  · have h1 : (merge2 a b).z = b.z := h
    simp only [hd, if_false, Option.bind_eq_bind, Option.bind_some, Option.pure_def, h1, MPEnv.dist12, sub_self, zero_mul,
      add_zero, Option.bind_assoc]
    cases ha : a.alpha (r.X * e.radToArcsec / e.dist b.z) (r.Y * e.radToArcsec / e.dist b.z) with
    | none => simp [merge2, ha]
    | some p =>
      simp only [Option.bind_some, merge2, ha]
      cases hb : b.alpha (r.X * e.radToArcsec / e.dist b.z) (r.Y * e.radToArcsec / e.dist b.z) with
      | none => simp
      | some q => simp [sub_sub]

theorem mpRays_group (e : MPEnv K) (zs z : K) (a : MPlaneO K) (g rest : List (MPlaneO K)) (ha : a.z = z)
    (hg : ∀ l ∈ g, l.z = z) (r : MPRay K) :
    mpRays e zs (a :: (g ++ rest)) r = mpRays e zs (g.foldl merge2 a :: rest) r := by
  induction g generalizing a r with
  | nil => rfl
  | cons b g ih =>
    have hb := hg b (by simp)
    rw [List.foldl_cons, ← ih (merge2 a b) ha (fun l hl => hg l (by simp [hl]))]
    show (mpRayStepO e a b.z r).bind (fun r => (mpRayStepO e b (nextZ zs (g ++ rest)) r).bind _) = _
    rw [← Option.bind_assoc, merge2_step e a b (ha.trans hb.symm)]
    rfl

theorem mpRays_append (e : MPEnv K) (zs : K) (pre L L' : List (MPlaneO K)) (hn : nextZ zs L = nextZ zs L')
    (h : ∀ r, mpRays e zs L r = mpRays e zs L' r) (r : MPRay K) : mpRays e zs (pre ++ L) r = mpRays e zs (pre ++ L') r := by
  induction pre generalizing r with
  | nil => exact h r
  | cons l pre ih =>
    have : nextZ zs (pre ++ L) = nextZ zs (pre ++ L') := by
      cases pre with
      | nil => exact hn
      | cons => rfl
    simp only [List.cons_append, mpRays, this]
    congr 1
    funext r
    exact ih r

theorem foldl_merge2_z (a : MPlaneO K) (g : List (MPlaneO K)) : (g.foldl merge2 a).z = a.z := by
  induction g generalizing a with
  | nil => rfl
  | cons b g ih => rw [List.foldl_cons, ih]; rfl

theorem foldl_merge2_thin (e : MPEnv K) (zs z : K) (l : ThinLensO K) (g : List (ThinLensO K)) (hl : l.z = z)
    (hg : ∀ m ∈ g, m.z = z) :
    (g.map (ThinLensO.plane e zs)).foldl merge2 (l.plane e zs) = (singlePlaneO z (l :: g)).plane e zs := by
  induction g using List.reverseRecOn with
  | nil =>
    simp only [List.map_nil, List.foldl_nil, ThinLensO.plane, singlePlaneO, hl, List.foldlM_cons, List.foldlM_nil,
      Option.bind_eq_bind, Option.pure_def]
    congr 1
    · funext x y
      simp only [ThinLensO.physical, hl]
      cases l.reduced x y <;> simp
    · funext x y
      cases l.psi x y <;> simp
  | append_singleton g m ih =>
    have hm : m.z = z := hg m (by simp)
    rw [List.map_append, List.foldl_append, ih fun m hm => hg m (by simp [hm])]
    simp only [List.map_cons, List.map_nil, List.foldl_cons, List.foldl_nil, merge2, ThinLensO.plane, singlePlaneO,
      ← List.cons_append, List.foldlM_append]
    congr 1
    · funext x y
      simp only [ThinLensO.physical, hm, singlePlaneO]
      cases quo (e.angDist zs) (e.angDist12 z zs) with
      | none => simp
      | some w =>
        simp only [Option.bind_eq_bind, Option.bind_some, Option.pure_def]
        cases (List.foldlM (fun a l => (ThinLensO.reduced l x y).bind fun c => some (a.1 + c.1, a.2 + c.2)) ((0, 0) : K × K)
          (l :: g)) with
        | none => simp
        | some p =>
          cases hr : m.reduced x y with
          | none => simp [hr]
          | some q => simp [hr, mul_add]
    · funext x y
      simp only [addO, Option.bind_eq_bind, Option.pure_def]
      cases (List.foldlM (fun a l => (ThinLensO.psi l x y).bind fun c => some (a + c)) (0 : K) (l :: g)) with
      | none => simp
      | some p => cases hr : m.psi x y <;> simp [hr]

end Caustics
