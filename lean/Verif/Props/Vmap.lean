import Verif.Model.Vmap
import Mathlib.Tactic.NormNum
import Mathlib.Data.Fintype.Basic

/-! C100: evaluating a batch of parameters with `vmap` gives what one call per element gives. -/

namespace Caustics

variable {B : ℕ} {α β γ K : Type}

@[simp] theorem BV.at_un (a : α) (i : Fin B) : (BV.un a : BV B α).at i = a := rfl
@[simp] theorem BV.at_ba (f : Fin B → α) (i : Fin B) : (BV.ba f).at i = f i := rfl
@[simp] theorem BV.at_map (f : α → β) (a : BV B α) (i : Fin B) : (a.map f).at i = f (a.at i) := by
  cases a <;> rfl
@[simp] theorem BV.at_ap (f : BV B (α → β)) (a : BV B α) (i : Fin B) :
    (f.ap a).at i = f.at i (a.at i) := by cases f <;> cases a <;> rfl
@[simp] theorem BV.at_map2 (f : α → β → γ) (a : BV B α) (c : BV B β) (i : Fin B) :
    (a.map2 f c).at i = f (a.at i) (c.at i) := by simp [BV.map2]
@[simp] theorem BV.batched_map (f : α → β) (a : BV B α) : (a.map f).batched = a.batched := by
  cases a <;> rfl
@[simp] theorem BV.batched_ap (f : BV B (α → β)) (a : BV B α) :
    (f.ap a).batched = (f.batched || a.batched) := by cases f <;> cases a <;> rfl
@[simp] theorem BV.batched_map2 (f : α → β → γ) (a : BV B α) (c : BV B β) :
    (a.map2 f c).batched = (a.batched || c.batched) := by simp [BV.map2]

theorem BV.inplace_ok (b : Backend) (f : α → β → α) (s : BV B α) (v : BV B β)
    (h : b = .jax ∨ s.batched = true ∨ v.batched = false) :
    s.inplace b f v = .ok (s.map2 f v) := by
  cases b <;> cases s <;> cases v <;> simp_all [BV.inplace, BV.batched]

theorem BV.inplace_error (f : α → β → α) (s : BV B α) (v : BV B β) (hs : s.batched = false)
    (hv : v.batched = true) : s.inplace .torch f v = .error .inplace := by
  cases s <;> cases v <;> simp_all [BV.inplace, BV.batched]

/-- `r` is a result of the vectorised call, and it holds for each batch element what `f` gives for that
element. -/
def VmapOk (r : Except VmapErr (BV B α)) (f : Fin B → Option α) : Prop :=
  ∃ v, r = .ok v ∧ ∀ i, f i = some (v.at i)

theorem foldl_inplace {γ : Type} (b : Backend) (f : α → β → α) (g : γ → BV B β) (l : List γ)
    (s : BV B α) (h : b = .jax ∨ s.batched = true ∨ ∀ a ∈ l, (g a).batched = false) :
    ∃ v, (l.foldlM (fun acc a => BV.inplace b f acc (g a)) s : Except VmapErr _) = .ok v ∧
      ∀ i, v.at i = l.foldl (fun acc a => f acc ((g a).at i)) (s.at i) := by
  induction l generalizing s with
  | nil => exact ⟨s, rfl, fun _ => rfl⟩
  | cons a l ih =>
    have h1 : b = .jax ∨ s.batched = true ∨ (g a).batched = false := by
      rcases h with h | h | h
      · exact .inl h
      · exact .inr (.inl h)
      · exact .inr (.inr (h a (by simp)))
    obtain ⟨v, hv, hat⟩ := ih (s.map2 f (g a)) (by
      rcases h with h | h | h
      · exact .inl h
      · exact .inr (.inl (by simp [h]))
      · exact .inr (.inr fun c hc => h c (by simp [hc])))
    refine ⟨v, ?_, fun i => ?_⟩
    · rw [List.foldlM_cons, BV.inplace_ok b f s (g a) h1]
      exact hv
    · rw [hat i]
      simp

theorem foldl_inplace_error {γ : Type} (f : α → β → α) (g : γ → BV B β) (l : List γ)
    (s : BV B α) (hs : s.batched = false) (h : ∃ a ∈ l, (g a).batched = true) :
    (l.foldlM (fun acc a => BV.inplace .torch f acc (g a)) s : Except VmapErr _)
      = .error .inplace := by
  induction l generalizing s with
  | nil => simp at h
  | cons a l ih =>
    rw [List.foldlM_cons]
    cases ha : (g a).batched with
    | true => rw [BV.inplace_error f s (g a) hs ha]; rfl
    | false =>
      rw [BV.inplace_ok .torch f s (g a) (.inr (.inr ha))]
      refine ih _ (by simp [hs, ha]) ?_
      obtain ⟨c, hc, hb⟩ := h
      rcases List.mem_cons.mp hc with rfl | hc
      · rw [ha] at hb; cases hb
      · exact ⟨c, hc, hb⟩

/-! ### Light -/

section

variable [AddCommMonoid K]

/-- The full property of `LightStack.brightness`: the batch gives what the elements give. -/
def C100_light_statement (K : Type) [AddCommMonoid K] (b : Backend) : Prop :=
  ∀ (B : ℕ) (models : List (BV B (K → K → K))) (x y : BV B K),
    VmapOk (lightStackB b models x y) fun i =>
      some (lightStackBrightness (models.map fun m => m.at i) (x.at i) (y.at i))

private theorem light_of_ok (b : Backend) (models : List (BV B (K → K → K))) (x y : BV B K)
    (h : b = .jax ∨ x.batched = true ∨
      ∀ m ∈ models, ((m.ap x).ap y).batched = false) :
    VmapOk (lightStackB b models x y) fun i =>
      some (lightStackBrightness (models.map fun m => m.at i) (x.at i) (y.at i)) := by
  obtain ⟨v, hv, hat⟩ := foldl_inplace b (· + ·) (fun m : BV B (K → K → K) => (m.ap x).ap y) models
    (x.map fun _ => (0 : K)) (by simpa using h)
  refine ⟨v, hv, fun i => ?_⟩
  rw [hat i]
  simp [lightStackBrightness, List.foldl_map]

/-- On jax it holds. -/
theorem C100_light_jax : C100_light_statement K .jax := fun _ models x y =>
  light_of_ok .jax models x y (.inl rfl)

/-- On torch exactly when the coordinate `x` carries the batch, or nothing does, or the stack is
empty; otherwise RuntimeError. -/
theorem C100_light_torch_partial (models : List (BV B (K → K → K))) (x y : BV B K) :
    (x.batched = true ∨ (y.batched = false ∧ ∀ m ∈ models, m.batched = false) ∨ models = [] →
      VmapOk (lightStackB .torch models x y) fun i =>
        some (lightStackBrightness (models.map fun m => m.at i) (x.at i) (y.at i))) ∧
    (¬ (x.batched = true ∨ (y.batched = false ∧ ∀ m ∈ models, m.batched = false) ∨ models = []) →
      lightStackB .torch models x y = .error .inplace) := by
  constructor
  · intro h
    apply light_of_ok
    rcases h with h | ⟨hy, h⟩ | rfl
    · exact .inr (.inl h)
    · by_cases hx : x.batched = true
      · exact .inr (.inl hx)
      · refine .inr (.inr fun m hm => ?_)
        simp [h m hm, hy, hx]
    · exact .inr (.inr (by simp))
  · intro h
    push Not at h
    obtain ⟨hx, h, hne⟩ := h
    refine foldl_inplace_error _ (fun m : BV B (K → K → K) => (m.ap x).ap y) _ _
      (by simpa using hx) ?_
    cases hy : y.batched with
    | true =>
      obtain ⟨m, l, rfl⟩ := List.exists_cons_of_ne_nil hne
      exact ⟨m, by simp, by simp [hy]⟩
    | false =>
      obtain ⟨m, hm, hb⟩ := h hy
      exact ⟨m, hm, by simpa using Or.inl (Or.inl (by simpa using hb))⟩

/-- So it fails on torch: two images of one light model of brightness 1 and 2. -/
theorem C100_light_fails : ¬ C100_light_statement ℚ .torch := by
  intro h
  obtain ⟨v, hv, _⟩ := h 2 [.ba fun i _ _ => (i : ℚ) + 1] (.un 0) (.un 0)
  have := (C100_light_torch_partial [.ba fun i _ _ => ((i : Fin 2) : ℚ) + 1]
    (.un (0 : ℚ)) (.un 0)).2 (by simp [BV.batched])
  rw [this] at hv
  cases hv

/-- The image of a lens-source simulator before the PSF: on jax, and on torch when there is no separate
lens light, it never fails. -/
theorem C100_lens_source {G V : Type} (b : Backend) (quad : V → K) (sl ls : Bool)
    (lens : BV B (G → G)) (source : BV B (G → V)) (lensLight : Option (BV B (G → V)))
    (grid : BV B G)
    (h : b = .jax ∨ lensLight = none ∨ grid.batched = true ∨
      (sl = true ∧ (source.batched = true ∨ ls = true ∧ lens.batched = true)) ∨
      ∃ l, lensLight = some l ∧ l.batched = false) :
    VmapOk (lensSourceMuB b 0 quad sl ls lens source lensLight grid) fun i =>
      some ((if sl then quad (source.at i (if ls then lens.at i (grid.at i) else grid.at i)) else 0)
        + match lensLight with
          | none => 0
          | some l => quad (l.at i (grid.at i))) := by
  cases lensLight with
  | none =>
    refine ⟨_, rfl, fun i => ?_⟩
    cases sl <;> cases ls <;> simp
  | some l =>
    simp only [lensSourceMuB]
    rw [BV.inplace_ok]
    · refine ⟨_, rfl, fun i => ?_⟩
      cases sl <;> cases ls <;> simp
    · rcases h with h | h | h | ⟨rfl, h⟩ | ⟨l', hl, h⟩
      · exact .inl h
      · cases h
      · refine .inr (.inl ?_)
        cases sl <;> cases ls <;> simp [h]
      · refine .inr (.inl ?_)
        rcases h with h | ⟨rfl, h⟩
        · cases ls <;> simp [h]
        · simp [h]
      · cases hl
        by_cases hg : grid.batched = true
        · refine .inr (.inl ?_)
          cases sl <;> cases ls <;> simp [hg]
        · exact .inr (.inr (by simpa [h] using hg))

/-- An image of lens light only (or with an unbatched source) over a batch of lens light parameters is
refused by torch. -/
theorem C100_lens_source_fails {G V : Type} (quad : V → K) (sl ls : Bool)
    (lens : BV B (G → G)) (source : BV B (G → V)) (l : BV B (G → V)) (grid : BV B G)
    (hg : grid.batched = false) (hl : l.batched = true)
    (hs : sl = false ∨ source.batched = false ∧ (ls = false ∨ lens.batched = false)) :
    lensSourceMuB .torch 0 quad sl ls lens source (some l) grid = .error .inplace := by
  simp only [lensSourceMuB]
  apply BV.inplace_error
  · rcases hs with rfl | ⟨h, rfl | h'⟩
    · simp [hg]
    · cases sl <;> simp [hg, h]
    · cases sl <;> cases ls <;> simp [hg, h, h']
  · simp [hl]

/-! ### Lenses -/

/-- A single plane: on both libraries, whatever carries the batch. -/
theorem C100_single_plane (lenses : List (BV B (LensFn K))) (x y : BV B K) (i : Fin B) :
    ((singlePlaneDeflectionB lenses x y).1.at i, (singlePlaneDeflectionB lenses x y).2.at i)
        = singlePlaneDeflection (lenses.map fun l => l.at i) (x.at i) (y.at i) ∧
      (singlePlaneConvergenceB lenses x y).at i
        = singlePlaneConvergence (lenses.map fun l => l.at i) (x.at i) (y.at i) ∧
      (singlePlanePotentialB lenses x y).at i
        = singlePlanePotential (lenses.map fun l => l.at i) (x.at i) (y.at i) := by
  have hd : ∀ (acc : BV B K × BV B K),
      ((lenses.foldl (fun acc l =>
        let a := ((l.map LensFn.deflection).ap x).ap y
        (acc.1.map2 (· + ·) (a.map Prod.fst), acc.2.map2 (· + ·) (a.map Prod.snd))) acc).1.at i,
       (lenses.foldl (fun acc l =>
        let a := ((l.map LensFn.deflection).ap x).ap y
        (acc.1.map2 (· + ·) (a.map Prod.fst), acc.2.map2 (· + ·) (a.map Prod.snd))) acc).2.at i)
      = lenses.foldl (fun acc l => (acc.1 + ((l.at i).deflection (x.at i) (y.at i)).1,
          acc.2 + ((l.at i).deflection (x.at i) (y.at i)).2)) (acc.1.at i, acc.2.at i) := by
    induction lenses with
    | nil => intro acc; rfl
    | cons l t ih =>
      intro acc
      simp only [List.foldl_cons]
      rw [ih]
      simp
  have hs : ∀ (f : LensFn K → K → K → K) (acc : BV B K),
      (lenses.foldl (fun acc l => acc.map2 (· + ·) (((l.map f).ap x).ap y)) acc).at i
      = lenses.foldl (fun acc l => acc + f (l.at i) (x.at i) (y.at i)) (acc.at i) := by
    intro f
    clear hd
    induction lenses with
    | nil => intro acc; rfl
    | cons l t ih =>
      intro acc
      simp only [List.foldl_cons]
      rw [ih]
      simp
  refine ⟨?_, ?_, ?_⟩
  · rw [singlePlaneDeflectionB, hd]
    simp [singlePlaneDeflection, List.foldl_map]
  · rw [singlePlaneConvergenceB, hs]
    simp [singlePlaneConvergence, List.foldl_map]
  · rw [singlePlanePotentialB, hs]
    simp [singlePlanePotential, List.foldl_map]

end

section

variable [Field K] [LinearOrder K]

/-- The time delay of a thin lens: on both libraries, whatever carries the batch. -/
theorem C100_thin_delay (e : BV B (MPEnv K)) (zs : BV B K) (shapiro geometric : Bool)
    (l : BV B (ThinLensFn K)) (x y : BV B K) (i : Fin B) :
    (thinTimeDelayB e zs shapiro geometric l x y).at i
      = (l.at i).timeDelay (e.at i) (zs.at i) shapiro geometric (x.at i) (y.at i) := by
  cases shapiro <;> cases geometric <;> simp [thinTimeDelayB, ThinLensFn.timeDelay]

/-- The state one batch element sees. -/
def MPStateB.item (s : MPStateB B K) (i : Fin B) : MPState K :=
  ⟨s.X.at i, s.Y.at i, s.thx.at i, s.thy.at i, s.td.at i⟩

theorem mpBodyB_ok (b : Backend) (e : BV B (MPEnv K)) (zs : BV B K) (shapiro geometric : Bool)
    (l : MPlaneB B K) (zNext : BV B K) (s : MPStateB B K)
    (h : b = .jax ∨ s.td.batched = true ∨ (shapiro = false ∧ geometric = false)) :
    ∃ s', mpBodyB b e zs shapiro geometric l zNext s = .ok s' ∧
      (s.td.batched = true → s'.td.batched = true) ∧
      ∀ i, s'.item i = mpBody (e.at i) (zs.at i) shapiro geometric (l.item i) (zNext.at i)
        (s.item i) := by
  cases shapiro with
  | false =>
    cases geometric with
    | false =>
      refine ⟨_, rfl, fun h => h, fun i => ?_⟩
      simp [MPStateB.item, mpBody, MPlaneB.item]
    | true =>
      simp only [mpBodyB]
      rw [if_neg (by simp)]
      simp only [if_true]
      rw [BV.inplace_ok _ _ _ _ (by simpa [or_assoc] using h.imp id Or.inl)]
      refine ⟨_, rfl, fun h => by simp [h], fun i => ?_⟩
      simp [MPStateB.item, mpBody, MPlaneB.item]
  | true =>
    have h' : b = .jax ∨ s.td.batched = true := by simpa using h
    simp only [mpBodyB, if_true]
    rw [BV.inplace_ok _ _ _ _ (h'.imp id Or.inl)]
    cases geometric with
    | false =>
      refine ⟨_, rfl, fun h => by simp [h], fun i => ?_⟩
      simp [MPStateB.item, mpBody, MPlaneB.item]
    | true =>
      simp only [if_true]
      rw [BV.inplace_ok _ _ _ _ (h'.imp id fun h => Or.inl (by simp [h]))]
      refine ⟨_, rfl, fun h => by simp [h], fun i => ?_⟩
      simp [MPStateB.item, mpBody, MPlaneB.item]

theorem mpLoopB_ok (b : Backend) (e : BV B (MPEnv K)) (zs : BV B K) (shapiro geometric : Bool)
    (lenses : List (MPlaneB B K)) (last : ℕ) (order : List ℕ) (s : MPStateB B K)
    (h : b = .jax ∨ s.td.batched = true ∨ (shapiro = false ∧ geometric = false)) :
    match mpLoopB b e zs shapiro geometric lenses last order s with
    | .ok s' => ∀ i, mpLoop (e.at i) (zs.at i) shapiro geometric
        (lenses.map fun l => l.item i) last order (s.item i) = some (s'.item i)
    | .error err => err = .indexError ∧ ∀ i, mpLoop (e.at i) (zs.at i) shapiro geometric
        (lenses.map fun l => l.item i) last order (s.item i) = none := by
  induction order generalizing s with
  | nil => intro i; rfl
  | cons j is ih =>
    rw [mpLoopB]
    have hz : ∀ i : Fin B, (if j ≠ last then
        ((lenses.map fun l => l.item i).map MPlane.z)[j + 1]? else some (zs.at i))
        = (if j ≠ last then (lenses.map MPlaneB.z)[j + 1]? else some zs).map (fun z => z.at i) := by
      intro i
      split
      · simp only [List.getElem?_map, Option.map_map]
        rfl
      · rfl
    have hl : ∀ i : Fin B, (lenses.map fun l => l.item i)[j]? = lenses[j]?.map fun l => l.item i := by
      intro i; simp
    simp only [mpLoop, hz, hl]
    generalize (if j ≠ last then (lenses.map MPlaneB.z)[j + 1]? else some zs) = zn
    cases lenses[j]? with
    | none => exact ⟨rfl, fun _ => rfl⟩
    | some l =>
      cases zn with
      | none => exact ⟨rfl, fun _ => rfl⟩
      | some z =>
        obtain ⟨s', hs', hb, hi⟩ := mpBodyB_ok b e zs shapiro geometric l z s h
        have := ih s' (h.imp id (Or.imp hb id))
        simp only [hs', Option.map_some, ← hi]
        exact this

theorem lensPlanesB_ok (zs : List (BV B K)) (h : zs.length ≤ 1 ∨ ∀ z ∈ zs, z.batched = false) :
    ∃ order, lensPlanesB zs = .ok order ∧ ∀ i, lensPlanes (zs.map fun z => z.at i) = order := by
  match zs with
  | [] => exact ⟨[], rfl, fun _ => rfl⟩
  | [z] => exact ⟨[0], rfl, fun _ => rfl⟩
  | z :: w :: t =>
    have hall : ∀ v ∈ z :: w :: t, v.batched = false := by
      rcases h with h | h
      · simp at h
      · exact h
    have : ∀ l : List (BV B K), (∀ v ∈ l, v.batched = false) →
        ∃ vs, l.mapM BV.un? = some vs ∧ ∀ i : Fin B, l.map (fun v => v.at i) = vs := by
      intro l
      induction l with
      | nil => intro _; exact ⟨[], rfl, fun _ => rfl⟩
      | cons a l ih =>
        intro hl
        obtain ⟨vs, h1, h2⟩ := ih fun v hv => hl v (by simp [hv])
        cases a with
        | un a =>
          refine ⟨a :: vs, ?_, fun i => ?_⟩
          · rw [List.mapM_cons, h1]; rfl
          · simp [h2 i]
        | ba f => have := hl (.ba f) (by simp); cases this
    obtain ⟨vs, h1, h2⟩ := this _ hall
    refine ⟨lensPlanes vs, ?_, fun i => by rw [h2 i]⟩
    simp [lensPlanesB, h1]

/-- The conditions under which the order of the planes can be found inside `vmap`: one lens, or lens
redshifts that do not carry the batch. -/
def OrderKnown (lenses : List (MPlaneB B K)) : Prop :=
  lenses.length ≤ 1 ∨ ∀ l ∈ lenses, l.z.batched = false

private theorem helper_ok (b : Backend) (e : BV B (MPEnv K)) (zs : BV B K) (shapiro geometric : Bool)
    (lenses : List (MPlaneB B K)) (x y : BV B K) (ho : OrderKnown lenses)
    (h : b = .jax ∨ x.batched = true ∨ (shapiro = false ∧ geometric = false)) :
    match mpHelperB b e zs shapiro geometric lenses x y with
    | .ok r => ∀ i, mpHelper (e.at i) (zs.at i) shapiro geometric (lenses.map fun l => l.item i)
        (x.at i) (y.at i) = some ((r.1.1.at i, r.1.2.at i), r.2.at i)
    | .error err => err = .indexError ∧ ∀ i, mpHelper (e.at i) (zs.at i) shapiro geometric
        (lenses.map fun l => l.item i) (x.at i) (y.at i) = none := by
  obtain ⟨order, h1, h2⟩ := lensPlanesB_ok (lenses.map MPlaneB.z) (by
    rcases ho with ho | ho
    · exact .inl (by simpa using ho)
    · exact .inr (by simpa using ho))
  have hzs : ∀ i : Fin B, (lenses.map fun l => l.item i).map MPlane.z
      = (lenses.map MPlaneB.z).map fun z => z.at i := by
    intro i
    simp only [List.map_map]
    rfl
  simp only [mpHelperB, h1, mpHelper, hzs, h2]
  cases hh : order.head? with
  | none => exact ⟨rfl, fun _ => rfl⟩
  | some i0 =>
    cases hl : order.getLast? with
    | none => exact ⟨rfl, fun _ => rfl⟩
    | some last =>
      dsimp only
      have hg : ∀ i : Fin B, ((lenses.map MPlaneB.z).map fun z => z.at i)[i0]?
          = (lenses.map MPlaneB.z)[i0]?.map fun z => z.at i := by intro i; simp
      simp only [hg]
      cases hz0 : (lenses.map MPlaneB.z)[i0]? with
      | none => exact ⟨rfl, fun _ => rfl⟩
      | some z0 =>
        simp only [Option.map_some]
        have hloop := mpLoopB_ok b e zs shapiro geometric lenses last order
          { X := (x.map2 (· * ·) (e.map MPEnv.arcsecToRad)).map2 (· * ·) ((e.map MPEnv.dist).ap z0)
            Y := (y.map2 (· * ·) (e.map MPEnv.arcsecToRad)).map2 (· * ·) ((e.map MPEnv.dist).ap z0)
            thx := x, thy := y, td := x.map fun _ => 0 } (by simpa using h)
        simp only [MPStateB.item, BV.at_map2, BV.at_map, BV.at_ap] at hloop
        split at hloop
        · rename_i s' hs'
          simp only [hs', hloop, BV.at_map2, BV.at_map, BV.at_ap, implies_true]
        · rename_i err hs'
          simp only [hs', hloop, implies_true, and_self]

/-- The full property of ray tracing through several planes. -/
def C100_raytrace_statement (K : Type) [Field K] [LinearOrder K] (b : Backend) : Prop :=
  ∀ (B : ℕ) (e : BV B (MPEnv K)) (zs : BV B K) (lenses : List (MPlaneB B K)) (x y : BV B K)
    (f : Fin B → K × K),
    (∀ i, mpRaytrace (e.at i) (zs.at i) (lenses.map fun l => l.item i) (x.at i) (y.at i) = some (f i)) →
    VmapOk (mpRaytraceB b e zs lenses x y) fun i => some (f i)

/-- It holds, on both libraries, for one lens and for lens redshifts that do not carry the batch. -/
theorem C100_raytrace_partial (b : Backend) (hB : 0 < B) (e : BV B (MPEnv K)) (zs : BV B K)
    (lenses : List (MPlaneB B K)) (x y : BV B K) (ho : OrderKnown lenses) (f : Fin B → K × K)
    (hf : ∀ i, mpRaytrace (e.at i) (zs.at i) (lenses.map fun l => l.item i) (x.at i) (y.at i)
      = some (f i)) :
    VmapOk (mpRaytraceB b e zs lenses x y) fun i => some (f i) := by
  have h := helper_ok b e zs false false lenses x y ho (.inr (.inr ⟨rfl, rfl⟩))
  unfold mpRaytraceB
  split at h
  · rename_i r hr
    simp only [hr]
    refine ⟨_, rfl, fun i => ?_⟩
    have := hf i
    simp only [mpRaytrace, h i, Option.map_some, Option.some.injEq] at this
    simp [← this]
  · have := hf ⟨0, hB⟩
    simp [mpRaytrace, h.2 ⟨0, hB⟩] at this

/-- Two lenses or more of which one redshift carries the batch are refused, on both libraries, by every
multiplane call. -/
theorem C100_redshifts_refused (b : Backend) (e : BV B (MPEnv K)) (zs : BV B K)
    (shapiro geometric : Bool) (lenses : List (MPlaneB B K)) (x y : BV B K)
    (h2 : 2 ≤ lenses.length) (l : MPlaneB B K) (hl : l ∈ lenses) (hb : l.z.batched = true) :
    mpRaytraceB b e zs lenses x y = .error .control ∧
      (shapiro || geometric →
        mpTimeDelayB b e zs shapiro geometric lenses x y = .error .control) := by
  have hnone : ∀ t : List (BV B K), (∃ v ∈ t, v.batched = true) → t.mapM BV.un? = none := by
    intro t
    induction t with
    | nil => simp
    | cons a t ih =>
      rintro ⟨v, hv, hvb⟩
      cases a with
      | ba f => simp [List.mapM_cons, BV.un?]
      | un a =>
        rcases List.mem_cons.mp hv with rfl | hv
        · cases hvb
        · simp [List.mapM_cons, ih ⟨v, hv, hvb⟩]
  have hord : lensPlanesB (lenses.map MPlaneB.z) = .error .control := by
    have hn := hnone (lenses.map MPlaneB.z) ⟨l.z, List.mem_map.mpr ⟨l, hl, rfl⟩, hb⟩
    match lenses, h2, hn with
    | _ :: _ :: _, _, hn =>
      simp only [List.map_cons] at hn
      simp only [List.map_cons, lensPlanesB, hn]
  have hh : ∀ s g, mpHelperB b e zs s g lenses x y = .error .control := by
    intro s g
    simp only [mpHelperB, hord]
  exact ⟨by simp only [mpRaytraceB, hh], fun hsg => by simp only [mpTimeDelayB, hsg, if_true, hh]⟩

private def egEnv : MPEnv ℚ := ⟨fun z => z, 2, 1, 1⟩

private def egLens (z : BV 2 ℚ) : MPlaneB 2 ℚ :=
  ⟨z, .un fun x y => (x, y), .un fun x y => x * y⟩

/-- So it fails on both libraries: two lenses, the nearer one at redshift 1 and at 3/2. -/
theorem C100_raytrace_fails (b : Backend) : ¬ C100_raytrace_statement ℚ b := by
  intro h
  have hi : ∀ i : Fin 2, ∃ p, mpRaytrace egEnv 3
      ([egLens (.ba fun i => 1 + (i : ℚ) / 2), egLens (.un 2)].map fun l => l.item i) 1 1
        = some p := by
    intro i
    rw [← Option.isSome_iff_exists]
    revert i
    decide +kernel
  choose f hf using hi
  obtain ⟨v, hv, _⟩ := h 2 (.un egEnv) (.un 3)
    [egLens (.ba fun i => 1 + (i : ℚ) / 2), egLens (.un 2)] (.un 1) (.un 1) f hf
  rw [(C100_redshifts_refused b _ _ true true _ _ _ (by simp) (egLens (.ba fun i => 1 + (i : ℚ) / 2))
    (by simp) rfl).1] at hv
  cases hv

/-- The full property of the multiplane time delay, with lens redshifts that do not carry the batch. -/
def C100_delay_statement (K : Type) [Field K] [LinearOrder K] (b : Backend) : Prop :=
  ∀ (B : ℕ), 0 < B → ∀ (e : BV B (MPEnv K)) (zs : BV B K) (shapiro geometric : Bool)
    (lenses : List (MPlaneB B K)) (x y : BV B K) (f : Fin B → K), OrderKnown lenses →
    (∀ i, mpTimeDelay (e.at i) (zs.at i) shapiro geometric (lenses.map fun l => l.item i)
      (x.at i) (y.at i) = some (f i)) →
    VmapOk (mpTimeDelayB b e zs shapiro geometric lenses x y) fun i => some (f i)

/-- It holds on jax, and on torch when `x` carries the batch. -/
theorem C100_delay_partial (b : Backend) (hB : 0 < B) (e : BV B (MPEnv K)) (zs : BV B K)
    (shapiro geometric : Bool) (lenses : List (MPlaneB B K)) (x y : BV B K) (f : Fin B → K)
    (ho : OrderKnown lenses) (hx : b = .jax ∨ x.batched = true)
    (hf : ∀ i, mpTimeDelay (e.at i) (zs.at i) shapiro geometric (lenses.map fun l => l.item i)
      (x.at i) (y.at i) = some (f i)) :
    VmapOk (mpTimeDelayB b e zs shapiro geometric lenses x y) fun i => some (f i) := by
  have hsg : (shapiro || geometric) = true := by
    by_contra hc
    have := hf ⟨0, hB⟩
    simp [mpTimeDelay, hc] at this
  have h := helper_ok b e zs shapiro geometric lenses x y ho (hx.imp id Or.inl)
  simp only [mpTimeDelayB, hsg, if_true]
  split at h
  · rename_i r hr
    simp only [hr]
    refine ⟨_, rfl, fun i => ?_⟩
    have := hf i
    simp only [mpTimeDelay, hsg, if_true, h i, Option.map_some, Option.some.injEq] at this
    simp [← this]
  · have := hf ⟨0, hB⟩
    simp [mpTimeDelay, hsg, h.2 ⟨0, hB⟩] at this

theorem C100_delay_jax : C100_delay_statement K .jax :=
  fun _ hB e zs s g lenses x y f ho hf =>
    C100_delay_partial .jax hB e zs s g lenses x y f ho (.inl rfl) hf

/-- With neither contribution asked for there is no delay, batched or not. -/
theorem C100_delay_none (b : Backend) (e : BV B (MPEnv K)) (zs : BV B K) (lenses : List (MPlaneB B K)) (x y : BV B K) :
    (∀ v, mpTimeDelayB b e zs false false lenses x y ≠ .ok v) ∧
      ∀ i, mpTimeDelay (e.at i) (zs.at i) false false (lenses.map fun l => l.item i) (x.at i) (y.at i) = none :=
  ⟨fun v hv => by simp [mpTimeDelayB] at hv, fun i => by simp [mpTimeDelay]⟩

/-- On torch a batch of source redshifts at fixed image positions has no (Shapiro) time delay. -/
theorem C100_delay_refused (e : BV B (MPEnv K)) (zs : BV B K) (geometric : Bool)
    (lenses : List (MPlaneB B K)) (x y : BV B K) (hx : x.batched = false) (hz : zs.batched = true) :
    ∀ v, mpTimeDelayB .torch e zs true geometric lenses x y ≠ .ok v := by
  intro v hv
  simp only [mpTimeDelayB, Bool.true_or, if_true] at hv
  have : ∀ r, mpHelperB .torch e zs true geometric lenses x y ≠ .ok r := by
    intro r hr
    unfold mpHelperB at hr
    split at hr
    · cases hr
    · rename_i order _
      split at hr
      · rename_i i0 last hhead _
        split at hr
        · rename_i z0 _
          dsimp only at hr
          split at hr
          · rename_i s hs
            cases order with
            | nil => cases hhead
            | cons j is =>
              rw [mpLoopB] at hs
              split at hs
              · rename_i l zn _ _
                split at hs
                · rename_i s' hs'
                  simp only [mpBodyB, if_true] at hs'
                  rw [BV.inplace_error _ _ _ (by simpa using hx) (by simp [hz])] at hs'
                  cases hs'
                · cases hs
              · cases hs
          · cases hr
        · cases hr
      · cases hr
  split at hv
  · rename_i r hr
    exact this r hr
  · cases hv

/-- So the property fails on torch: one lens, source redshifts 2 and 3. -/
theorem C100_delay_fails : ¬ C100_delay_statement ℚ .torch := by
  intro h
  have hi : ∀ i : Fin 2, ∃ p, mpTimeDelay egEnv ((BV.ba fun i : Fin 2 => 2 + (i : ℚ)).at i) true true
      ([egLens (.un 1)].map fun l => l.item i) 1 1 = some p := by
    intro i
    fin_cases i <;> exact ⟨_, rfl⟩
  choose f hf using hi
  obtain ⟨v, hv, _⟩ := h 2 (by norm_num) (.un egEnv) (.ba fun i => 2 + (i : ℚ)) true true
    [egLens (.un 1)] (.un 1) (.un 1) f (.inl (by simp)) hf
  exact C100_delay_refused _ _ true _ _ _ rfl rfl v hv

omit [LinearOrder K] in
/-- The finite difference Jacobian: on jax always, on torch only when no deflection carries the batch. -/
theorem C100_finite_difference (gx gy : BV B (K × K)) :
    VmapOk (jacFiniteDiffB .jax gx gy) (fun i => some
      { a01 := (gx.at i).1, a00 := (gx.at i).2, a11 := (gy.at i).1, a10 := (gy.at i).2 }) ∧
    (gx.batched = false → gy.batched = false → VmapOk (jacFiniteDiffB .torch gx gy) (fun i => some
      { a01 := (gx.at i).1, a00 := (gx.at i).2, a11 := (gy.at i).1, a10 := (gy.at i).2 })) := by
  constructor
  · refine ⟨_, by simp only [jacFiniteDiffB, BV.inplace_ok _ _ _ _ (Or.inl rfl)]; rfl, fun i => ?_⟩
    simp
  · intro hx hy
    cases gx with
    | ba _ => cases hx
    | un gx =>
      cases gy with
      | ba _ => cases hy
      | un gy => exact ⟨_, rfl, fun i => rfl⟩

omit [LinearOrder K] in
theorem C100_finite_difference_fails (gx gy : BV B (K × K))
    (h : gx.batched = true ∨ gy.batched = true) :
    jacFiniteDiffB .torch gx gy = .error .inplace := by
  cases gx with
  | ba _ => rfl
  | un gx =>
    cases gy with
    | ba _ => rfl
    | un gy => rcases h with h | h <;> cases h

end

/-! ### World coordinates -/

/-- `pixel_to_plane`: on jax, and on torch when the pixel position or `crpix` carries the batch or the
coefficients do not. -/
theorem C100_pixel_to_plane_partial (b : Backend) (ij crpix : BV B (ℝ × ℝ)) (cd : BV B CDMatrix)
    (powers : List (ℕ × ℕ)) (coefs : List (BV B (ℝ × ℝ))) (crplane : BV B (ℝ × ℝ))
    (hlen : powers.length ≤ coefs.length)
    (h : b = .jax ∨ ij.batched = true ∨ crpix.batched = true ∨ ∀ c ∈ coefs, c.batched = false) :
    VmapOk (pixelToPlaneB b ij crpix cd powers coefs crplane) fun i =>
      pixelToPlane (ij.at i).1 (ij.at i).2 (crpix.at i) (cd.at i) powers
        (coefs.map fun c => c.at i) (some (crplane.at i)) := by
  obtain ⟨v, hv, hat⟩ := foldl_inplace b (fun a c : ℝ × ℝ => a + c)
    (fun t : (ℕ × ℕ) × BV B (ℝ × ℝ) => t.2.map2
      (fun c v => (c.1 * (v.1 ^ t.1.1 * v.2 ^ t.1.2), c.2 * (v.1 ^ t.1.1 * v.2 ^ t.1.2)))
      (ij.map2 (· - ·) crpix)) (powers.zip coefs)
    ((ij.map2 (· - ·) crpix).map fun _ => ((0 : ℝ), (0 : ℝ))) (by
      rcases h with h | h | h | h
      · exact .inl h
      · exact .inr (.inl (by simp [h]))
      · exact .inr (.inl (by simp [h]))
      · by_cases hb : ij.batched = true ∨ crpix.batched = true
        · exact .inr (.inl (by simpa using hb))
        · refine .inr (.inr fun t ht => ?_)
          have := h t.2 (List.of_mem_zip ht).2
          simp only [not_or, Bool.not_eq_true] at hb
          simp [this, hb.1, hb.2])
  refine ⟨((cd.map CDMatrix.apply).ap ((ij.map2 (· - ·) crpix).map2 (· + ·) v)).map2 (· + ·) crplane,
    ?_, fun i => ?_⟩
  · have hs : sipDeltaB b (ij.map2 (· - ·) crpix) powers coefs (ij.map2 (· - ·) crpix) = .ok v := by
      rw [sipDeltaB, if_neg (by omega)]
      exact hv
    simp only [pixelToPlaneB, hs]
  · simp only [pixelToPlane, sipDelta, List.length_map]
    rw [if_neg (by omega), List.zip_map_right, List.foldl_map]
    simp only [BV.at_map2, BV.at_map, BV.at_ap, hat i, Option.map_some, Option.getD_some,
      Option.some.injEq]
    rfl

/-- Batched distortion coefficients at fixed pixels are refused by torch. -/
theorem C100_pixel_to_plane_fails (ij crpix : BV B (ℝ × ℝ)) (cd : BV B CDMatrix)
    (p : ℕ × ℕ) (powers : List (ℕ × ℕ)) (c : BV B (ℝ × ℝ)) (coefs : List (BV B (ℝ × ℝ)))
    (crplane : BV B (ℝ × ℝ)) (hlen : powers.length ≤ coefs.length)
    (hi : ij.batched = false) (hc : crpix.batched = false) (hb : c.batched = true) :
    pixelToPlaneB .torch ij crpix cd (p :: powers) (c :: coefs) crplane = .error .inplace := by
  have hs : sipDeltaB .torch (ij.map2 (· - ·) crpix) (p :: powers) (c :: coefs)
      (ij.map2 (· - ·) crpix) = .error .inplace := by
    rw [sipDeltaB, if_neg (by simp; omega)]
    refine foldl_inplace_error (fun a c : ℝ × ℝ => a + c)
      (fun t : (ℕ × ℕ) × BV B (ℝ × ℝ) => t.2.map2
        (fun c v => (c.1 * (v.1 ^ t.1.1 * v.2 ^ t.1.2), c.2 * (v.1 ^ t.1.1 * v.2 ^ t.1.2)))
        (ij.map2 (· - ·) crpix)) ((p :: powers).zip (c :: coefs)) _ ?_ ⟨(p, c), ?_, ?_⟩
    · simp [hi, hc]
    · simp
    · simp [hb]
  simp only [pixelToPlaneB, hs]

/-! ### Examples -/

/-- Two brightnesses, positions that carry the batch: torch returns both sums. -/
example : ∃ v, lightStackB .torch [.ba fun i x y => (i : ℚ) + x + y, .un fun x _ => x]
    (.ba fun i : Fin 2 => 10 * (i : ℚ)) (.un 1) = .ok v ∧ v.at 0 = 1 ∧ v.at 1 = 22 :=
  ⟨_, rfl, by decide +kernel, by decide +kernel⟩

/-- The same at a fixed position: refused by torch, fine on jax. -/
example : lightStackB .torch [.ba fun (i : Fin 2) x y => (i : ℚ) + x + y, .un fun x _ => x]
      (.un 5) (.un 1) = .error .inplace ∧
    ∃ v, lightStackB .jax [.ba fun (i : Fin 2) x y => (i : ℚ) + x + y, .un fun x _ => x]
      (.un 5) (.un 1) = .ok v ∧ v.at 0 = 11 ∧ v.at 1 = 12 :=
  ⟨rfl, _, rfl, by decide +kernel, by decide +kernel⟩

/-- A batch of source redshifts behind two lenses, traced on torch. -/
example : ∃ v, mpRaytraceB .torch (.un egEnv) (.ba fun i => 3 + (i : ℚ))
    [egLens (.un 1), egLens (.un 2)] (.un 1) (.un 1) = .ok v ∧ v.at 0 ≠ v.at 1 :=
  ⟨_, rfl, by decide +kernel⟩

end Caustics
