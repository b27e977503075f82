import Verif.Lemmas.BuildSim
import Mathlib.Tactic.NormNum
import Mathlib.Tactic.FinCases

/-!
C44: `build_simulator` replaces references to earlier entries by the objects built for them.

A reference in YAML is an alias: the argument *is* the dict of the entry.  The code looks for an entry
that compares equal instead of one that is identical, so the property holds for configurations whose
entries can be told apart (`WellFormed`) and fails for two entries with equal contents.
-/

namespace Caustics

/-- C44: the whole construction, for every well formed configuration of any length and any reference
graph.  The calls are made in the order of the entries, one each; a keyword argument that is an alias
of an earlier entry is the object of that entry; every other argument (scalars, lists, dicts, forward
references) is passed unchanged; the name of the entry is added; the last object is returned. -/
theorem C44_resolve_partial {cls : Classes} {entries : List (String × ℕ)} {h : YHeap} {kw : ℕ → Option ℕ}
    {kind : ℕ → String} (w : WellFormed cls entries h kw kind) (fuel : ℕ) :
    ∃ ms, buildAll cls entries fuel h = .ok ms ∧ ms.length = entries.length ∧
      (∀ (i : ℕ) (e : String × ℕ), entries[i]? = some e → ∃ m, ms[i]? = some m ∧ m.kind = kind e.2 ∧
        m.kwargs.map Prod.fst = (match kw e.2 with | none => [] | some a => (h a).map Prod.fst) ++ ["name"] ∧
        dget m.kwargs "name" = some (.atom e.1) ∧
        ∀ a, kw e.2 = some a → ∀ key v, (key, v) ∈ h a →
          (∀ j e', j < i → entries[j]? = some e' → v = .dict e'.2 → dget m.kwargs key = some (.obj j)) ∧
          ((∀ j e', j < i → entries[j]? = some e' → v ≠ .dict e'.2) → dget m.kwargs key = some v)) ∧
      buildSimulator cls entries fuel h = match ms.getLast? with
        | some m => .ok m
        | none => .error .indexError := by
  obtain ⟨ms, h1, h2, h3⟩ := w.loop fuel entries [] h [] rfl
    ⟨fun _ _ => rfl, fun _ hx => by cases hx⟩ rfl (fun i e hx => by simp at hx)
  refine ⟨ms, h1, h2, ?_, ?_⟩
  · intro i e hi
    refine ⟨_, h3 i e hi, rfl, ?_, ?_, ?_⟩
    · unfold expectedCall
      cases kw e.2 with
      | none => rfl
      | some a => simp [Function.comp_def]
    · unfold expectedCall
      have he : e ∈ entries := List.mem_of_getElem? hi
      cases hk : kw e.2 with
      | none => rfl
      | some a =>
        obtain ⟨hnd, hnm⟩ := w.args e he a hk
        refine dget_of_mem ?_ (by simp)
        simp only [List.map_append, List.map_map]
        refine List.nodup_append.2 ⟨hnd, by simp, ?_⟩
        intro x hx y hy hxy
        simp only [List.map_cons, List.map_nil, List.mem_singleton] at hy
        subst hxy
        rw [hy] at hx
        exact hnm hx
    · intro a ha key v hv
      have he : e ∈ entries := List.mem_of_getElem? hi
      obtain ⟨hnd, hnm⟩ := w.args e he a ha
      have hget : dget (expectedCall h kw kind (entries.take i) e).kwargs key
          = some (resolved (entries.take i) v) := by
        unfold expectedCall
        rw [ha]
        refine dget_of_mem ?_ ?_
        · simp only [List.map_append, List.map_map]
          refine List.nodup_append.2 ⟨hnd, by simp, ?_⟩
          intro x hx y hy hxy
          simp only [List.map_cons, List.map_nil, List.mem_singleton] at hy
          subst hxy
          rw [hy] at hx
          exact hnm hx
        · refine List.mem_append_left _ (List.mem_map.2 ⟨(key, v), hv, rfl⟩)
      rw [hget]
      constructor
      · rintro j e' hj hje rfl
        unfold resolved
        have hidx : (entries.take i).findIdx? (fun x => decide (x.2 = e'.2)) = some j := by
          rw [List.findIdx?_eq_some_iff_getElem]
          have hjl : j < entries.length := by
            by_contra hc
            rw [List.getElem?_eq_none (by omega)] at hje
            cases hje
          have hjt : j < (entries.take i).length := by rw [List.length_take]; omega
          refine ⟨hjt, ?_, ?_⟩
          · rw [List.getElem?_eq_getElem hjl, Option.some.injEq] at hje
            simp [hje]
          · intro k hk
            rw [List.getElem?_eq_getElem hjl, Option.some.injEq] at hje
            simp only [List.getElem_take, decide_eq_true_eq]
            intro hc
            have hkl : k < entries.length := by omega
            have heq : entries[k] = entries[j] :=
              w.entry_inj (List.getElem_mem hkl) (List.getElem_mem hjl) (by rw [hc, hje])
            have hnodup : entries.Nodup := List.Nodup.of_map _ w.addrs
            have := (List.Nodup.getElem_inj_iff hnodup).1 heq
            omega
        simp only [hidx]
      · intro hno
        congr 1
        unfold resolved
        cases v with
        | dict p =>
          have hidx : (entries.take i).findIdx? (fun x => decide (x.2 = p)) = none := by
            rw [List.findIdx?_eq_none_iff]
            intro x hx
            obtain ⟨j, hj, hjx⟩ := List.getElem_of_mem hx
            rw [List.length_take] at hj
            rw [List.getElem_take] at hjx
            simp only [decide_eq_false_iff_not]
            intro hc
            refine hno j x (by omega) ?_ (by rw [hc])
            rw [List.getElem?_eq_getElem (by omega), hjx]
          simp only [hidx]
        | _ => rfl
  · unfold buildSimulator buildAll
    rw [h1]
    simp only
    cases ms.getLast? <;> rfl

/-- The unrestricted claim: an argument that is an alias of an earlier entry becomes the object of that
entry, in every configuration with distinct entries that builds. -/
def C44_statement : Prop :=
  ∀ (cls : Classes) (entries : List (String × ℕ)) (fuel : ℕ) (h : YHeap) (ms : List Built),
    (entries.map Prod.fst).Nodup → (entries.map Prod.snd).Nodup → buildAll cls entries fuel h = .ok ms →
    ∀ (i j : ℕ) (e e' : String × ℕ) (a : ℕ) (key : String) (m : Built), entries[i]? = some e → entries[j]? = some e' →
      j < i → dget (h e.2) "init_kwargs" = some (.dict a) → (key, .dict e'.2) ∈ h a → ms[i]? = some m →
      dget m.kwargs key = some (.obj j)

/-- Two bare sources of the same class and a lens-source simulator that uses the second:
`{bulge: {kind: Sersic}, disk: {kind: Sersic}, sim: {kind: LensSource, init_kwargs: {source: *disk}}}`. -/
def twinsHeap : YHeap := fun p =>
  if p = 0 then [("kind", .atom "Sersic")]
  else if p = 1 then [("kind", .atom "Sersic")]
  else if p = 2 then [("kind", .atom "LensSource"), ("init_kwargs", .dict 3)]
  else if p = 3 then [("source", .dict 1)]
  else []

def twinsEntries : List (String × ℕ) := [("bulge", 0), ("disk", 1), ("sim", 2)]

/-- C44 fails for entries with equal contents: the simulator gets the first of the two. -/
theorem C44_fails : ¬ C44_statement := by
  intro H
  have hb : buildAll (fun _ => some true) twinsEntries 1 twinsHeap = .ok
      [⟨"Sersic", [("name", .atom "bulge")]⟩, ⟨"Sersic", [("name", .atom "disk")]⟩,
        ⟨"LensSource", [("source", .obj 0), ("name", .atom "sim")]⟩] := by
    simp [buildAll, buildLoop, buildEntry, construct, twinsEntries, twinsHeap, dget, dset, resolveKeys, matchEntry, yeq]
  have := H (fun _ => some true) twinsEntries 1 twinsHeap _ (by decide) (by decide) hb 2 1 ("sim", 2) ("disk", 1) 3
    "source" _ rfl rfl (by decide) (by simp [twinsHeap, dget]) (by simp [twinsHeap]) rfl
  simp [dget] at this

/-- C44: a reference inside a list is never resolved: `LightStack(light_models=[*a, *b])` or
`SinglePlane(lenses=[*l1, *l2])` cannot be written in a configuration. -/
theorem C44_lists {cls : Classes} {entries : List (String × ℕ)} {fuel : ℕ} {h : YHeap} {name : String} {addr a : ℕ}
    {key : String} {l : List YVal} (hkw : dget (h addr) "init_kwargs" = some (.dict a))
    (hl : dget (h a) key = some (.list l)) (hkey : key ≠ "name") {h' : YHeap} {m : Built}
    (hb : buildEntry cls entries fuel name addr h = .ok (h', m)) : dget m.kwargs key = some (.list l) := by
  have dget_dset : ∀ (d : List (String × YVal)) (k k' : String) (v : YVal), k' ≠ k → dget (dset d k v) k' = dget d k' := by
    intro d k k' v hne
    induction d with
    | nil => simp [dset, dget, Ne.symm hne]
    | cons p d ih =>
      unfold dset
      split
      · rename_i hp
        simp [dget, Ne.symm hne, hp]
      · unfold dget at ih ⊢
        rw [List.find?_cons, List.find?_cons]
        split
        · rfl
        · exact ih
  have keep : ∀ (keys : List String) (H : YHeap), dget (H a) key = some (.list l) →
      dget (resolveKeys entries fuel name a keys H a) key = some (.list l) := by
    intro keys
    induction keys with
    | nil => intro H hH; exact hH
    | cons k keys ih =>
      intro H hH
      unfold resolveKeys
      cases hv : dget (H a) k with
      | none => exact ih H hH
      | some v =>
        simp only
        cases hm : matchEntry H fuel name v entries 0 with
        | none => exact ih H hH
        | some i =>
          refine ih _ ?_
          simp only [if_true]
          by_cases hkk : k = key
          · subst hkk
            rw [hv, Option.some.injEq] at hH
            subst hH
            rw [matchEntry_scalar H fuel name (by intro p hc; cases hc)] at hm
            cases hm
          · rw [dget_dset _ _ _ _ (Ne.symm hkk)]
            exact hH
  unfold buildEntry at hb
  rw [hkw] at hb
  simp only at hb
  have hk := keep ((h a).map Prod.fst) h hl
  generalize resolveKeys entries fuel name a ((h a).map Prod.fst) h = R at hb hk
  unfold construct at hb
  cases hkind : dget (R addr) "kind" with
  | none => rw [hkind] at hb; cases hb
  | some v =>
    rw [hkind] at hb
    cases v with
    | atom kind =>
      simp only at hb
      cases hc : cls kind with
      | none => rw [hc] at hb; cases hb
      | some hasName =>
        rw [hc] at hb
        simp only [Except.ok.injEq, Prod.mk.injEq] at hb
        rw [← hb.2]
        cases hasName
        · simpa using hk
        · simp only [if_true]
          rw [dget_dset _ _ _ _ hkey]
          exact hk
    | dict _ => cases hb
    | list _ => cases hb
    | obj _ => cases hb

/-- A configuration like the ones in the tests: cosmology, lens, source and simulator, where the
cosmology is used twice.  All hypotheses of the theorem hold. -/
def demoHeap : YHeap := fun p =>
  if p = 0 then [("name", .atom "cosmo"), ("kind", .atom "FlatLambdaCDM")]
  else if p = 1 then [("name", .atom "lens"), ("kind", .atom "SIE"), ("init_kwargs", .dict 11)]
  else if p = 2 then [("name", .atom "source"), ("kind", .atom "Sersic")]
  else if p = 3 then [("name", .atom "sim"), ("kind", .atom "LensSource"), ("init_kwargs", .dict 13)]
  else if p = 11 then [("cosmology", .dict 0), ("z_l", .atom "0.5")]
  else if p = 13 then [("lens", .dict 1), ("source", .dict 2), ("pixelscale", .atom "0.05"), ("opts", .dict 20)]
  else if p = 20 then [("zero", .atom "1")]
  else []

def demoEntries : List (String × ℕ) := [("cosmo", 0), ("lens", 1), ("source", 2), ("sim", 3)]

def demoKw : ℕ → Option ℕ := fun p => if p = 1 then some 11 else if p = 3 then some 13 else none

def demoKind : ℕ → String := fun p =>
  if p = 0 then "FlatLambdaCDM" else if p = 1 then "SIE" else if p = 2 then "Sersic" else "LensSource"

theorem demo_wf : WellFormed (fun _ => some true) demoEntries demoHeap demoKw demoKind where
  names := by decide
  addrs := by decide
  keys := by simp [demoEntries, demoHeap]
  kind_eq := by simp [demoEntries, demoHeap, demoKind, dget]
  kw_eq := by simp [demoEntries, demoHeap, demoKw, dget]
  own := by
    simp only [demoEntries, List.mem_cons, List.not_mem_nil, or_false]
    rintro e (rfl | rfl | rfl | rfl) e' (rfl | rfl | rfl | rfl) a <;> simp [demoKw] <;> omega
  sep := by simp [demoEntries, demoKw]
  args := by simp [demoEntries, demoKw, demoHeap]
  refs := by
    simp only [demoEntries, List.mem_cons, List.not_mem_nil, or_false]
    rintro e (rfl | rfl | rfl | rfl) a ha k p hp <;> simp [demoKw] at ha <;> subst ha <;> simp [demoHeap] at hp
    · left; exact ⟨_, Or.inl rfl, hp.2.symm⟩
    · rcases hp with ⟨_, rfl⟩ | ⟨_, rfl⟩ | ⟨_, rfl⟩
      · left; simp
      · left; simp
      · right; simp [demoHeap, dget, demoKw]
  plain := by
    simp only [demoEntries, List.mem_cons, List.not_mem_nil, or_false]
    rintro e (rfl | rfl | rfl | rfl) e' (rfl | rfl | rfl | rfl) hne h1 h2 <;> simp [demoKw] at h1 h2 hne
    · exact ⟨"name", "cosmo", by simp [demoHeap], by simp [demoHeap, dget]⟩
    · exact ⟨"name", "source", by simp [demoHeap], by simp [demoHeap, dget]⟩

example : ∃ ms, buildAll (fun _ => some true) demoEntries 7 demoHeap = .ok ms ∧ ms.length = 4 := by
  obtain ⟨ms, h1, h2, _⟩ := C44_resolve_partial demo_wf 7
  exact ⟨ms, h1, h2⟩

example : buildSimulator (fun _ => some true) demoEntries 7 demoHeap = .ok
    ⟨"LensSource", [("lens", .obj 1), ("source", .obj 2), ("pixelscale", .atom "0.05"), ("opts", .dict 20),
      ("name", .atom "sim")]⟩ := by
  simp [buildSimulator, buildAll, buildLoop, buildEntry, construct, demoEntries, demoHeap, dget, dset, resolveKeys,
    matchEntry, yeq]

end Caustics
