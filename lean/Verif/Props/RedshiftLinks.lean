import Verif.Model.RedshiftLinks
import Mathlib.Logic.Relation
import Mathlib.Data.List.Basic
import Mathlib.Data.List.Induction
import Mathlib.Data.Rat.Defs
import Mathlib.Algebra.BigOperators.Group.List.Basic

/-! C138: composite lenses hand their redshifts down to their members. -/

namespace Caustics

variable {K : Type}

/-- The lenses whose source redshift a statement touches. -/
def ZCmd.writesZs : ZCmd K → List ℕ
  | .setZs i _ => [i]
  | s => s.members

/-- The lenses whose lens redshift a statement touches. -/
def ZCmd.writesZl : ZCmd K → List ℕ
  | .setZl i _ => [i]
  | .newMulti _ _ => []
  | s => s.members

/-- The lenses whose lens redshift a constructor takes over. -/
def ZCmd.takesZl : ZCmd K → List ℕ
  | .newMulti _ _ => []
  | s => s.members

/-- Every lens is given to at most one composite lens, and its source redshift is not assigned afterwards. -/
def SourceOnce (p : List (ZCmd K)) : Prop := p.Pairwise fun a b => ∀ m ∈ a.members, m ∉ b.writesZs

/-- Every lens is given to at most one `SinglePlane` or `BatchedPlane`, and its lens redshift is not assigned afterwards. -/
def LensOnce (p : List (ZCmd K)) : Prop := p.Pairwise fun a b => ∀ m ∈ a.takesZl, m ∉ b.writesZl

/-- `m` is a member of the composite lens `c`. -/
def ZMember (w : ZWorld K) (m c : ℕ) : Prop := c < w.n ∧ (w.lens c).live = true ∧ m ∈ (w.lens c).members

/-! ### What handing down does -/

structure HandedDown (c : ℕ) (ms : List ℕ) (w w' : ZWorld K) : Prop where
  n : w'.n = w.n
  kind : ∀ i, (w'.lens i).kind = (w.lens i).kind
  members : ∀ i, (w'.lens i).members = (w.lens i).members
  live : ∀ i, (w'.lens i).live = (w.lens i).live
  zs : ∀ i, (w'.lens i).zs = (w.lens i).zs ∨ (i ∈ ms ∧ (w'.lens i).zs = .pointer c)
  zl : ∀ i, (w'.lens i).zl = (w.lens i).zl ∨ (i ∈ ms ∧ (w.lens i).zl ≠ none ∧ (w'.lens i).zl = some (.pointer c))

theorem HandedDown.refl (c : ℕ) (ms : List ℕ) (w : ZWorld K) : HandedDown c ms w w :=
  ⟨rfl, fun _ => rfl, fun _ => rfl, fun _ => rfl, fun _ => .inl rfl, fun _ => .inl rfl⟩

theorem HandedDown.trans {c : ℕ} {ms ms' : List ℕ} {w w' w'' : ZWorld K} (h : HandedDown c ms w w')
    (h' : HandedDown c ms' w' w'') : HandedDown c (ms ++ ms') w w'' where
  n := h'.n.trans h.n
  kind i := (h'.kind i).trans (h.kind i)
  members i := (h'.members i).trans (h.members i)
  live i := (h'.live i).trans (h.live i)
  zs i := by
    rcases h'.zs i with e | ⟨e1, e2⟩
    · rcases h.zs i with e' | ⟨e1, e2⟩
      · exact .inl (e.trans e')
      · exact .inr ⟨by simp [e1], e.trans e2⟩
    · exact .inr ⟨by simp [e1], e2⟩
  zl i := by
    rcases h'.zl i with e | ⟨e1, e2, e3⟩
    · rcases h.zl i with e' | ⟨e1, e2, e3⟩
      · exact .inl (e.trans e')
      · exact .inr ⟨by simp [e1], e2, e.trans e3⟩
    · rcases h.zl i with e' | ⟨e1', e2', e3'⟩
      · exact .inr ⟨by simp [e1], e' ▸ e2, e3⟩
      · exact .inr ⟨by simp [e1], e2', e3⟩

theorem handDownZs_spec (c m : ℕ) (w : ZWorld K) :
    HandedDown c [m] w (handDownZs c m w).1 ∧ ((handDownZs c m w).1.lens m).zs = .pointer c ∧
    (∀ i, ((handDownZs c m w).1.lens i).zl = (w.lens i).zl) ∧ (handDownZs c m w).2.2 = none := by
  have key : ∀ i, i = m ∨ (handDownZs c m w).1.lens i = w.lens i := by
    intro i
    by_cases h : i = m
    · exact .inl h
    · exact .inr (by simp [handDownZs, ZWorld.setLens, Function.update_of_ne h])
  have hm : (handDownZs c m w).1.lens m = { w.lens m with zs := .pointer c } := by simp [handDownZs, ZWorld.setLens]
  refine ⟨⟨rfl, ?_, ?_, ?_, ?_, ?_⟩, by rw [hm], ?_, rfl⟩
  · intro i; rcases key i with rfl | h
    · rw [hm]
    · rw [h]
  · intro i; rcases key i with rfl | h
    · rw [hm]
    · rw [h]
  · intro i; rcases key i with rfl | h
    · rw [hm]
    · rw [h]
  · intro i; rcases key i with rfl | h
    · exact .inr ⟨by simp, by rw [hm]⟩
    · exact .inl (by rw [h])
  · intro i; rcases key i with rfl | h
    · exact .inl (by rw [hm])
    · exact .inl (by rw [h])
  · intro i; rcases key i with rfl | h
    · rw [hm]
    · rw [h]

theorem handDownZl_spec (c m : ℕ) (w : ZWorld K) :
    HandedDown c [m] w (handDownZl c m w).1 ∧
    ((handDownZl c m w).2.2 = none → ((handDownZl c m w).1.lens m).zl = some (.pointer c)) := by
  cases hz : (w.lens m).zl with
  | none =>
    have e : handDownZl c m w = (w, [], some .attributeError) := by simp [handDownZl, hz]
    rw [e]
    exact ⟨.refl .., by simp⟩
  | some k =>
    have e : (handDownZl c m w).1 = w.setLens m { w.lens m with zl := some (.pointer c) } := by simp [handDownZl, hz]
    have key : ∀ i, i = m ∨ (handDownZl c m w).1.lens i = w.lens i := by
      intro i
      by_cases h : i = m
      · exact .inl h
      · exact .inr (by simp [e, ZWorld.setLens, Function.update_of_ne h])
    have hm : (handDownZl c m w).1.lens m = { w.lens m with zl := some (.pointer c) } := by simp [e, ZWorld.setLens]
    refine ⟨⟨by rw [e]; rfl, ?_, ?_, ?_, ?_, ?_⟩, fun _ => by rw [hm]⟩
    · intro i; rcases key i with rfl | h
      · rw [hm]
      · rw [h]
    · intro i; rcases key i with rfl | h
      · rw [hm]
      · rw [h]
    · intro i; rcases key i with rfl | h
      · rw [hm]
      · rw [h]
    · intro i; rcases key i with rfl | h
      · exact .inl (by rw [hm])
      · exact .inl (by rw [h])
    · intro i; rcases key i with rfl | h
      · exact .inr ⟨by simp, by simp [hz], by rw [hm]⟩
      · exact .inl (by rw [h])

theorem HandedDown.keepZs {c : ℕ} {ms : List ℕ} {w w' : ZWorld K} (h : HandedDown c ms w w') {i : ℕ}
    (hi : (w.lens i).zs = .pointer c) : (w'.lens i).zs = .pointer c := by
  rcases h.zs i with e | ⟨-, e⟩
  · rw [e, hi]
  · exact e

theorem HandedDown.keepZl {c : ℕ} {ms : List ℕ} {w w' : ZWorld K} (h : HandedDown c ms w w') {i : ℕ}
    (hi : (w.lens i).zl = some (.pointer c)) : (w'.lens i).zl = some (.pointer c) := by
  rcases h.zl i with e | ⟨-, -, e⟩
  · rw [e, hi]
  · exact e

/-- The whole loop. -/
theorem handDown_spec (kind : ZLensKind) (c : ℕ) (ms : List ℕ) (w : ZWorld K) :
    HandedDown c ms w (zHandDown kind c ms w).1 ∧
    (kind = .multi → ∀ i, ((zHandDown kind c ms w).1.lens i).zl = (w.lens i).zl) ∧
    ((zHandDown kind c ms w).2.2 = none → ∀ m ∈ ms, ((zHandDown kind c ms w).1.lens m).zs = .pointer c ∧
      (kind ≠ .multi → ((zHandDown kind c ms w).1.lens m).zl = some (.pointer c))) := by
  induction ms generalizing w with
  | nil => exact ⟨.refl .., fun _ _ => rfl, by simp⟩
  | cons m ms ih =>
    by_cases hk : kind = .multi
    · obtain ⟨s1, s2, s3, s4⟩ := handDownZs_spec c m w
      obtain ⟨i1, i2, i3⟩ := ih (handDownZs c m w).1
      have e : (zHandDown kind c (m :: ms) w).1 = (zHandDown kind c ms (handDownZs c m w).1).1 ∧
          (zHandDown kind c (m :: ms) w).2.2 = (zHandDown kind c ms (handDownZs c m w).1).2.2 := by
        simp [zHandDown, List.flatMap_cons, hk, zSeq, handDownZs]
      rw [e.1, e.2]
      refine ⟨s1.trans i1, fun _ i => (i2 hk i).trans (s3 i), fun h0 m' hm' => ?_⟩
      rcases List.mem_cons.1 hm' with rfl | hm'
      · exact ⟨i1.keepZs s2, fun h => absurd hk h⟩
      · exact i3 h0 m' hm'
    · obtain ⟨l1, l2⟩ := handDownZl_spec c m w
      cases he : (handDownZl c m w).2.2 with
      | some err =>
        have e : (zHandDown kind c (m :: ms) w).1 = (handDownZl c m w).1 ∧ (zHandDown kind c (m :: ms) w).2.2 = some err := by
          rcases hz : handDownZl c m w with ⟨w', l, r⟩
          rw [hz] at he
          simp only at he
          subst he
          simp [zHandDown, List.flatMap_cons, hk, zSeq, hz]
        rw [e.1, e.2]
        refine ⟨?_, fun h => absurd h hk, by simp⟩
        simpa using l1.trans (.refl c ms _)
      | none =>
        obtain ⟨s1, s2, s3, s4⟩ := handDownZs_spec c m (handDownZl c m w).1
        obtain ⟨i1, i2, i3⟩ := ih (handDownZs c m (handDownZl c m w).1).1
        have e : (zHandDown kind c (m :: ms) w).1 = (zHandDown kind c ms (handDownZs c m (handDownZl c m w).1).1).1 ∧
            (zHandDown kind c (m :: ms) w).2.2 = (zHandDown kind c ms (handDownZs c m (handDownZl c m w).1).1).2.2 := by
          rcases hz : handDownZl c m w with ⟨w', l, r⟩
          rw [hz] at he
          simp only at he
          subst he
          simp [zHandDown, List.flatMap_cons, hk, zSeq, hz, handDownZs]
        rw [e.1, e.2]
        have h12 : HandedDown c (m :: ms) w (zHandDown kind c ms (handDownZs c m (handDownZl c m w).1).1).1 := by
          have := (l1.trans s1).trans i1
          refine ⟨this.n, this.kind, this.members, this.live, fun i => ?_, fun i => ?_⟩
          · simpa using this.zs i
          · simpa using this.zl i
        refine ⟨h12, fun h => absurd h hk, fun h0 m' hm' => ?_⟩
        rcases List.mem_cons.1 hm' with rfl | hm'
        · exact ⟨i1.keepZs s2, fun _ => i1.keepZl (s1.keepZl (l2 he))⟩
        · exact i3 h0 m' hm'

/-! ### One statement -/

/-- Pointers lead to younger objects, only a `Multiplane` has no lens redshift, members are older than their owner. -/
structure ZInv (w : ZWorld K) : Prop where
  zs : ∀ i j, i < w.n → (w.lens i).zs = .pointer j → i < j ∧ j < w.n
  zl : ∀ i j, i < w.n → (w.lens i).zl = some (.pointer j) → i < j ∧ j < w.n ∧ (w.lens j).zl ≠ none
  kind : ∀ i, i < w.n → ((w.lens i).zl = none ↔ (w.lens i).kind = .multi)
  members : ∀ c, c < w.n → ∀ m ∈ (w.lens c).members, m < c
  live : ∀ c, c < w.n → ∀ m ∈ (w.lens c).members, (w.lens m).live = true

/-- What a constructor leaves. -/
structure Constructed (k : ZLensKind) (ms : List ℕ) (zl : Option (ZKind K)) (zs : ZKind K) (w w' : ZWorld K) : Prop where
  n : w'.n = w.n + 1
  newKind : (w'.lens w.n).kind = k
  newMembers : (w'.lens w.n).members = ms
  newZl : (w'.lens w.n).zl = zl
  newZs : (w'.lens w.n).zs = zs
  kind : ∀ i, i < w.n → (w'.lens i).kind = (w.lens i).kind
  members : ∀ i, i < w.n → (w'.lens i).members = (w.lens i).members
  live : ∀ i, i < w.n → (w'.lens i).live = (w.lens i).live
  zs : ∀ i, i < w.n → (w'.lens i).zs = (w.lens i).zs ∨ (i ∈ ms ∧ (w'.lens i).zs = .pointer w.n)
  zl : ∀ i, i < w.n → (w'.lens i).zl = (w.lens i).zl ∨
    (i ∈ ms ∧ k ≠ .multi ∧ (w.lens i).zl ≠ none ∧ (w'.lens i).zl = some (.pointer w.n))
  done : (w'.lens w.n).live = true → ∀ m ∈ ms, (w'.lens m).zs = .pointer w.n ∧
    (k ≠ .multi → (w'.lens m).zl = some (.pointer w.n))

theorem construct_spec (k : ZLensKind) (ms : List ℕ) (zl : Option (ZKind K)) (zs : ZKind K) (w : ZWorld K)
    (hms : ∀ m ∈ ms, m < w.n) : Constructed k ms zl zs w (zConstruct k ms zl zs w).1 := by
  obtain ⟨w1, hw1⟩ : ∃ w1 : ZWorld K, w1 = ⟨w.n + 1, Function.update w.lens w.n ⟨k, ms, zl, zs, false⟩⟩ := ⟨_, rfl⟩
  obtain ⟨h1, h2, h3⟩ := handDown_spec k w.n ms w1
  have hc : w.n ∉ ms := fun h => lt_irrefl _ (hms _ h)
  have old : ∀ i, i < w.n → w1.lens i = w.lens i :=
    fun i hi => by rw [hw1]; exact Function.update_of_ne hi.ne _ _
  have new : w1.lens w.n = ⟨k, ms, zl, zs, false⟩ := by rw [hw1]; exact Function.update_self ..
  have hn : w1.n = w.n + 1 := by rw [hw1]
  have hcon : zConstruct k ms zl zs w = match zHandDown k w.n ms w1 with
    | (w2, l, none) => (w2.setLens w.n { w2.lens w.n with live := true }, l, none)
    | (w2, l, some e) => (w2, l, some e) := by rw [hw1]; rfl
  clear hw1
  rcases hd : zHandDown k w.n ms w1 with ⟨w2, l, r⟩
  rw [hd] at h1 h2 h3 hcon
  simp only at h1 h2 h3
  have zs_new : (w2.lens w.n).zs = zs := by
    rcases h1.zs w.n with e | ⟨e, -⟩
    · rw [e, new]
    · exact absurd e hc
  have zl_new : (w2.lens w.n).zl = zl := by
    rcases h1.zl w.n with e | ⟨e, -⟩
    · rw [e, new]
    · exact absurd e hc
  have zl_old : ∀ i, i < w.n → (w2.lens i).zl = (w.lens i).zl ∨
      (i ∈ ms ∧ k ≠ .multi ∧ (w.lens i).zl ≠ none ∧ (w2.lens i).zl = some (.pointer w.n)) := by
    intro i hi
    by_cases hk : k = .multi
    · left; rw [h2 hk i, old i hi]
    · rcases h1.zl i with e | ⟨e1, e2, e3⟩
      · left; rw [e, old i hi]
      · right; rw [old i hi] at e2; exact ⟨e1, hk, e2, e3⟩
  have zs_old : ∀ i, i < w.n → (w2.lens i).zs = (w.lens i).zs ∨ (i ∈ ms ∧ (w2.lens i).zs = .pointer w.n) := by
    intro i hi
    rcases h1.zs i with e | e
    · left; rw [e, old i hi]
    · exact .inr e
  cases r with
  | some err =>
    have e : (zConstruct k ms zl zs w).1 = w2 := by rw [hcon]
    rw [e]
    refine ⟨h1.n.trans hn, by rw [h1.kind, new], by rw [h1.members, new], zl_new, zs_new, fun i hi => by rw [h1.kind, old i hi],
      fun i hi => by rw [h1.members, old i hi], fun i hi => by rw [h1.live, old i hi], zs_old, zl_old, fun h => ?_⟩
    rw [h1.live, new] at h
    simp at h
  | none =>
    have e : (zConstruct k ms zl zs w).1 = w2.setLens w.n { w2.lens w.n with live := true } := by rw [hcon]
    have o : ∀ i, i ≠ w.n → (zConstruct k ms zl zs w).1.lens i = w2.lens i := by
      intro i hi; rw [e]; simp [ZWorld.setLens, Function.update_of_ne hi]
    have on : (zConstruct k ms zl zs w).1.lens w.n = { w2.lens w.n with live := true } := by rw [e]; simp [ZWorld.setLens]
    refine ⟨by rw [e]; exact h1.n.trans hn, by rw [on]; simp [h1.kind, new], by rw [on]; simp [h1.members, new],
      by rw [on]; exact zl_new,
      by rw [on]; exact zs_new, fun i hi => by rw [o i hi.ne, h1.kind, old i hi],
      fun i hi => by rw [o i hi.ne, h1.members, old i hi], fun i hi => by rw [o i hi.ne, h1.live, old i hi],
      fun i hi => by rw [o i hi.ne]; exact zs_old i hi, fun i hi => by rw [o i hi.ne]; exact zl_old i hi, fun _ m hm => ?_⟩
    rw [o m (hms m hm).ne]
    exact h3 rfl m hm

/-- What any statement leaves: a new object, or an assignment, or nothing. -/
theorem run_cases (s : ZCmd K) (w : ZWorld K) :
    (s.run w).1 = w ∨
    (∃ k zl zs, Constructed k s.members zl zs w (s.run w).1 ∧ (∀ m ∈ s.members, m < w.n ∧ (w.lens m).live = true) ∧ (zl = none ↔ k = .multi) ∧
      (∀ j, zl ≠ some (.pointer j)) ∧ (∀ j, zs ≠ .pointer j) ∧ s.writesZs = s.members ∧
      (k = .multi ∨ s.writesZl = s.members ∧ s.takesZl = s.members)) ∨
    (∃ i v, s = .setZl i v ∧ i < w.n ∧ (w.lens i).zl ≠ none ∧
      (s.run w).1 = w.setLens i { w.lens i with zl := some (.ofArg v) }) ∨
    (∃ i v, s = .setZs i v ∧ i < w.n ∧ (s.run w).1 = w.setLens i { w.lens i with zs := .ofArg v }) := by
  have ho : ∀ (a : Option K) j, ZKind.ofArg a ≠ .pointer j := by intro a j; cases a <;> simp [ZKind.ofArg]
  by_cases hm : s.members.all (fun m => m < w.n && (w.lens m).live) = true
  · have hms : ∀ m ∈ s.members, m < w.n ∧ (w.lens m).live = true := by simpa using hm
    cases s with
    | newThin zl zs =>
      right; left
      refine ⟨.thin, some (.ofArg zl), .ofArg zs, ?_, hms, by simp, fun j => by simpa using ho zl j, ho zs, rfl, .inr ⟨rfl, rfl⟩⟩
      have : ((ZCmd.newThin zl zs).run w) = zConstruct .thin [] (some (.ofArg zl)) (.ofArg zs) w := by simp [ZCmd.run, hm]
      rw [this]
      exact construct_spec _ _ _ _ _ fun m h => (hms m h).1
    | newSingle ms zl zs =>
      right; left
      refine ⟨.single, some (.ofArg zl), .ofArg zs, ?_, hms, by simp, fun j => by simpa using ho zl j, ho zs, rfl, .inr ⟨rfl, rfl⟩⟩
      have : ((ZCmd.newSingle ms zl zs).run w) = zConstruct .single ms (some (.ofArg zl)) (.ofArg zs) w := by simp [ZCmd.run, hm]
      rw [this]
      exact construct_spec _ _ _ _ _ fun m h => (hms m h).1
    | newBatched m zl zs =>
      right; left
      refine ⟨.batched, some (.ofArg zl), .ofArg zs, ?_, hms, by simp, fun j => by simpa using ho zl j, ho zs, rfl, .inr ⟨rfl, rfl⟩⟩
      have : ((ZCmd.newBatched m zl zs).run w) = zConstruct .batched [m] (some (.ofArg zl)) (.ofArg zs) w := by simp [ZCmd.run, hm]
      rw [this]
      exact construct_spec _ _ _ _ _ fun m h => (hms m h).1
    | newMulti ms zs =>
      right; left
      refine ⟨.multi, none, .ofArg zs, ?_, hms, by simp, by simp, ho zs, rfl, .inl rfl⟩
      have : ((ZCmd.newMulti ms zs).run w) = zConstruct .multi ms none (.ofArg zs) w := by simp [ZCmd.run, hm]
      rw [this]
      exact construct_spec _ _ _ _ _ fun m h => (hms m h).1
    | setZl i v =>
      by_cases hi : i < w.n ∧ (w.lens i).live = true
      · cases hz : (w.lens i).zl with
        | none => left; simp [ZCmd.run, hm, hi, hz]
        | some k =>
          right; right; left
          exact ⟨i, v, rfl, hi.1, by simp [hz], by simp [ZCmd.run, hm, hi, hz]⟩
      · left; simp [ZCmd.run, hm, hi]
    | setZs i v =>
      by_cases hi : i < w.n ∧ (w.lens i).live = true
      · right; right; right
        exact ⟨i, v, rfl, hi.1, by simp [ZCmd.run, hm, hi]⟩
      · left; simp [ZCmd.run, hm, hi]
  · left; simp [ZCmd.run, hm]

theorem setLens_n (w : ZWorld K) (i : ℕ) (l : ZLens K) : (w.setLens i l).n = w.n := rfl

theorem setLens_lens (w : ZWorld K) (i : ℕ) (l : ZLens K) (j : ℕ) : (w.setLens i l).lens j = if j = i then l else w.lens j := by
  simp [ZWorld.setLens, Function.update_apply]

theorem ZInv.step {w : ZWorld K} (h : ZInv w) (s : ZCmd K) : ZInv (s.run w).1 := by
  have ho : ∀ (a : Option K) j, ZKind.ofArg a ≠ .pointer j := by intro a j; cases a <;> simp [ZKind.ofArg]
  rcases run_cases s w with e | ⟨k, zl, zs, e, hms, hk, hzl, hzs, -, -⟩ | ⟨i, v, -, hi, hz, e⟩ | ⟨i, v, -, hi, e⟩
  · rw [e]; exact h
  · generalize (s.run w).1 = w' at e
    have hzlne : ∀ j, j < w.n → (w.lens j).zl ≠ none → (w'.lens j).zl ≠ none := by
      intro j hj hne
      rcases e.zl j hj with e' | ⟨-, -, -, e'⟩ <;> rw [e'] <;> simp [hne]
    refine ⟨fun i j hi hp => ?_, fun i j hi hp => ?_, fun i hi => ?_, fun c hc m hm => ?_, fun c hc m hm => ?_⟩
    · rw [e.n] at hi ⊢
      rcases Nat.lt_succ_iff_lt_or_eq.1 hi with hi | rfl
      · rcases e.zs i hi with e' | ⟨-, e'⟩
        · rw [e'] at hp; have := h.zs i j hi hp; omega
        · rw [e'] at hp; cases hp; omega
      · rw [e.newZs] at hp; exact absurd hp (hzs j)
    · rw [e.n] at hi ⊢
      rcases Nat.lt_succ_iff_lt_or_eq.1 hi with hi | rfl
      · rcases e.zl i hi with e' | ⟨-, hkm, -, e'⟩
        · rw [e'] at hp
          obtain ⟨a, b, c⟩ := h.zl i j hi hp
          exact ⟨a, by omega, hzlne j b c⟩
        · rw [e'] at hp; cases hp
          refine ⟨hi, by omega, ?_⟩
          rw [e.newZl]
          exact fun h0 => hkm (hk.1 h0)
      · rw [e.newZl] at hp; exact absurd hp (hzl j)
    · rw [e.n] at hi
      rcases Nat.lt_succ_iff_lt_or_eq.1 hi with hi | rfl
      · rw [e.kind i hi, ← h.kind i hi]
        rcases e.zl i hi with e' | ⟨-, -, hne, e'⟩
        · rw [e']
        · rw [e']; simp [hne]
      · rw [e.newZl, e.newKind]; exact hk
    · rw [e.n] at hc
      rcases Nat.lt_succ_iff_lt_or_eq.1 hc with hc | rfl
      · rw [e.members c hc] at hm; exact h.members c hc m hm
      · rw [e.newMembers] at hm; exact (hms m hm).1
    · rw [e.n] at hc
      rcases Nat.lt_succ_iff_lt_or_eq.1 hc with hc | rfl
      · rw [e.members c hc] at hm
        rw [e.live m ((h.members c hc m hm).trans hc)]
        exact h.live c hc m hm
      · rw [e.newMembers] at hm
        rw [e.live m (hms m hm).1]
        exact (hms m hm).2
  · rw [e]
    refine ⟨fun a j ha hp => ?_, fun a j ha hp => ?_, fun a ha => ?_, fun c hc m hm => ?_, fun c hc m hm => ?_⟩
    · rw [setLens_lens] at hp
      split_ifs at hp with hai
      · subst hai; exact h.zs a j ha hp
      · exact h.zs a j ha hp
    · rw [setLens_lens] at hp
      split_ifs at hp with hai
      · simp only [Option.some.injEq] at hp; exact absurd hp (ho v j)
      · obtain ⟨x, y, z⟩ := h.zl a j ha hp
        refine ⟨x, y, ?_⟩
        rw [setLens_lens]
        split_ifs <;> simp [z]
    · rw [setLens_lens]
      split_ifs with hai
      · subst hai; simpa [hz] using (h.kind a ha).not.1 hz
      · exact h.kind a ha
    · rw [setLens_lens] at hm
      split_ifs at hm with hai
      · subst hai; exact h.members c hc m hm
      · exact h.members c hc m hm
    · have hm' : m ∈ (w.lens c).members := by
        rw [setLens_lens] at hm
        split_ifs at hm with hai
        · subst hai; exact hm
        · exact hm
      rw [setLens_lens]
      split_ifs with hai
      · subst hai; exact h.live c hc m hm'
      · exact h.live c hc m hm'
  · rw [e]
    refine ⟨fun a j ha hp => ?_, fun a j ha hp => ?_, fun a ha => ?_, fun c hc m hm => ?_, fun c hc m hm => ?_⟩
    · rw [setLens_lens] at hp
      split_ifs at hp with hai
      · exact absurd hp (ho v j)
      · exact h.zs a j ha hp
    · have hs : ∀ b, ((w.setLens i { w.lens i with zs := .ofArg v }).lens b).zl = (w.lens b).zl := by
        intro b; rw [setLens_lens]; split_ifs with hb
        · subst hb; rfl
        · rfl
      rw [hs] at hp ⊢
      exact h.zl a j ha hp
    · rw [setLens_lens]
      split_ifs with hai
      · subst hai; exact h.kind a ha
      · exact h.kind a ha
    · rw [setLens_lens] at hm
      split_ifs at hm with hai
      · subst hai; exact h.members c hc m hm
      · exact h.members c hc m hm
    · have hm' : m ∈ (w.lens c).members := by
        rw [setLens_lens] at hm
        split_ifs at hm with hai
        · subst hai; exact hm
        · exact hm
      rw [setLens_lens]
      split_ifs with hai
      · subst hai; exact h.live c hc m hm'
      · exact h.live c hc m hm'

theorem zRun_append (p : List (ZCmd K)) (s : ZCmd K) (w : ZWorld K) : zRun (p ++ [s]) w = (s.run (zRun p w)).1 := by
  simp [zRun]

theorem zRun_inv (p : List (ZCmd K)) : ZInv (zRun p ZWorld.empty) := by
  induction p using List.reverseRecOn with
  | nil => exact ⟨by simp [zRun, ZWorld.empty], by simp [zRun, ZWorld.empty], by simp [zRun, ZWorld.empty], by simp [zRun, ZWorld.empty], by simp [zRun, ZWorld.empty]⟩
  | append_singleton p s ih => rw [zRun_append]; exact ih.step s

/-! ### Members keep pointing at their owner -/

theorem pointsZs (p : List (ZCmd K)) (hp : SourceOnce p) : ∀ m c, ZMember (zRun p ZWorld.empty) m c →
    (∃ a ∈ p, m ∈ a.members) ∧ ((zRun p ZWorld.empty).lens m).zs = .pointer c := by
  induction p using List.reverseRecOn with
  | nil => intro m c h; exact absurd h.1 (by simp [zRun, ZWorld.empty])
  | append_singleton p s ih =>
    obtain ⟨hp1, -, hp2⟩ := List.pairwise_append.1 hp
    replace ih := ih hp1
    have hinv := zRun_inv p
    rw [zRun_append]
    generalize zRun p ZWorld.empty = w at ih hinv
    intro m c hm
    have old : ZMember w m c → m ∉ s.writesZs := fun h h' => by
      obtain ⟨⟨a, ha, hma⟩, -⟩ := ih m c h
      exact hp2 a ha s (by simp) m hma h'
    have ext : ZMember w m c → ∃ a ∈ p ++ [s], m ∈ a.members := fun h => by
      obtain ⟨⟨a, ha, hma⟩, -⟩ := ih m c h
      exact ⟨a, by simp [ha], hma⟩
    rcases run_cases s w with e | ⟨k, zl, zs, e, hms, hk, hzl, hzs, hw, -⟩ | ⟨i, v, hs, hi, hz, e⟩ | ⟨i, v, hs, hi, e⟩
    · rw [e] at hm ⊢
      exact ⟨ext hm, (ih m c hm).2⟩
    · obtain ⟨h1, h2, h3⟩ := hm
      rw [e.n] at h1
      rcases Nat.lt_succ_iff_lt_or_eq.1 h1 with hc | rfl
      · rw [e.members c hc] at h3
        rw [e.live c hc] at h2
        have hM : ZMember w m c := ⟨hc, h2, h3⟩
        refine ⟨ext hM, ?_⟩
        have hmn : m < w.n := (hinv.members c hc m h3).trans hc
        rcases e.zs m hmn with e' | ⟨e', -⟩
        · rw [e']; exact (ih m c hM).2
        · exact absurd (hw ▸ e') (old hM)
      · rw [e.newMembers] at h3
        exact ⟨⟨s, by simp, h3⟩, (e.done h2 m h3).1⟩
    · rw [e] at hm ⊢
      have hM : ZMember w m c := by
        obtain ⟨h1, h2, h3⟩ := hm
        rw [setLens_lens] at h2 h3
        refine ⟨h1, ?_, ?_⟩
        · split_ifs at h2 with hci
          · subst hci; exact h2
          · exact h2
        · split_ifs at h3 with hci
          · subst hci; exact h3
          · exact h3
      refine ⟨ext hM, ?_⟩
      rw [setLens_lens]
      split_ifs with hmi
      · subst hmi; exact (ih m c hM).2
      · exact (ih m c hM).2
    · rw [e] at hm ⊢
      have hM : ZMember w m c := by
        obtain ⟨h1, h2, h3⟩ := hm
        rw [setLens_lens] at h2 h3
        refine ⟨h1, ?_, ?_⟩
        · split_ifs at h2 with hci
          · subst hci; exact h2
          · exact h2
        · split_ifs at h3 with hci
          · subst hci; exact h3
          · exact h3
      refine ⟨ext hM, ?_⟩
      have hmi : m ≠ i := fun h => old hM (by rw [hs]; simp [ZCmd.writesZs, h])
      rw [setLens_lens, if_neg hmi]
      exact (ih m c hM).2

theorem pointsZl (p : List (ZCmd K)) (hp : LensOnce p) : ∀ m c, ZMember (zRun p ZWorld.empty) m c →
    ((zRun p ZWorld.empty).lens c).kind ≠ .multi →
    (∃ a ∈ p, m ∈ a.takesZl) ∧ ((zRun p ZWorld.empty).lens m).zl = some (.pointer c) := by
  induction p using List.reverseRecOn with
  | nil => intro m c h; exact absurd h.1 (by simp [zRun, ZWorld.empty])
  | append_singleton p s ih =>
    obtain ⟨hp1, -, hp2⟩ := List.pairwise_append.1 hp
    replace ih := ih hp1
    have hinv := zRun_inv p
    rw [zRun_append]
    generalize zRun p ZWorld.empty = w at ih hinv
    intro m c hm hkc
    have old : ZMember w m c → (w.lens c).kind ≠ .multi → m ∉ s.writesZl := fun h hk h' => by
      obtain ⟨⟨a, ha, hma⟩, -⟩ := ih m c h hk
      exact hp2 a ha s (by simp) m hma h'
    have ext : ZMember w m c → (w.lens c).kind ≠ .multi → ∃ a ∈ p ++ [s], m ∈ a.takesZl := fun h hk => by
      obtain ⟨⟨a, ha, hma⟩, -⟩ := ih m c h hk
      exact ⟨a, by simp [ha], hma⟩
    rcases run_cases s w with e | ⟨k, zl, zs, e, hms, hk, hzl, hzs, -, hw⟩ | ⟨i, v, hs, hi, hz, e⟩ | ⟨i, v, hs, hi, e⟩
    · rw [e] at hm hkc ⊢
      exact ⟨ext hm hkc, (ih m c hm hkc).2⟩
    · obtain ⟨h1, h2, h3⟩ := hm
      rw [e.n] at h1
      rcases Nat.lt_succ_iff_lt_or_eq.1 h1 with hc | rfl
      · rw [e.members c hc] at h3
        rw [e.live c hc] at h2
        rw [e.kind c hc] at hkc
        have hM : ZMember w m c := ⟨hc, h2, h3⟩
        refine ⟨ext hM hkc, ?_⟩
        have hmn : m < w.n := (hinv.members c hc m h3).trans hc
        rcases e.zl m hmn with e' | ⟨e', hkm, -, -⟩
        · rw [e']; exact (ih m c hM hkc).2
        · rcases hw with hw | ⟨hw, -⟩
          · exact absurd hw hkm
          · exact absurd (hw ▸ e') (old hM hkc)
      · rw [e.newMembers] at h3
        rw [e.newKind] at hkc
        rcases hw with hw | ⟨-, hw⟩
        · exact absurd hw hkc
        · exact ⟨⟨s, by simp, hw ▸ h3⟩, (e.done h2 m h3).2 hkc⟩
    · rw [e] at hm hkc ⊢
      have same : ∀ b, ((w.setLens i { w.lens i with zl := some (.ofArg v) }).lens b).kind = (w.lens b).kind ∧
          ((w.setLens i { w.lens i with zl := some (.ofArg v) }).lens b).members = (w.lens b).members ∧
          ((w.setLens i { w.lens i with zl := some (.ofArg v) }).lens b).live = (w.lens b).live := by
        intro b; rw [setLens_lens]; split_ifs with hb
        · subst hb; exact ⟨rfl, rfl, rfl⟩
        · exact ⟨rfl, rfl, rfl⟩
      obtain ⟨h1, h2, h3⟩ := hm
      rw [(same c).2.2] at h2
      rw [(same c).2.1] at h3
      rw [(same c).1] at hkc
      have hM : ZMember w m c := ⟨h1, h2, h3⟩
      refine ⟨ext hM hkc, ?_⟩
      have hmi : m ≠ i := fun h => old hM hkc (by rw [hs]; simp [ZCmd.writesZl, h])
      rw [setLens_lens, if_neg hmi]
      exact (ih m c hM hkc).2
    · rw [e] at hm hkc ⊢
      have same : ∀ b, ((w.setLens i { w.lens i with zs := .ofArg v }).lens b).kind = (w.lens b).kind ∧
          ((w.setLens i { w.lens i with zs := .ofArg v }).lens b).members = (w.lens b).members ∧
          ((w.setLens i { w.lens i with zs := .ofArg v }).lens b).live = (w.lens b).live ∧
          ((w.setLens i { w.lens i with zs := .ofArg v }).lens b).zl = (w.lens b).zl := by
        intro b; rw [setLens_lens]; split_ifs with hb
        · subst hb; exact ⟨rfl, rfl, rfl, rfl⟩
        · exact ⟨rfl, rfl, rfl, rfl⟩
      obtain ⟨h1, h2, h3⟩ := hm
      rw [(same c).2.2.1] at h2
      rw [(same c).2.1] at h3
      rw [(same c).1] at hkc
      have hM : ZMember w m c := ⟨h1, h2, h3⟩
      refine ⟨ext hM hkc, ?_⟩
      rw [(same m).2.2.2]
      exact (ih m c hM hkc).2

/-! ### Values -/

/-- With enough steps the value of a parameter does not depend on the number of steps. -/
theorem resolve_fuel {k : ℕ → Option (ZKind K)} {n : ℕ} (hk : ∀ i j, i < n → k i = some (.pointer j) → i < j ∧ j < n)
    (env : ℕ → K) : ∀ f g i, i < n → n - i ≤ f → n - i ≤ g → zResolve k env f i = zResolve k env g i := by
  intro f
  induction f with
  | zero => intro g i hi hf; omega
  | succ f ih =>
    intro g i hi hf hg
    obtain ⟨g, rfl⟩ : ∃ g', g = g' + 1 := ⟨g - 1, by omega⟩
    rw [zResolve, zResolve]
    cases hki : k i with
    | none => rfl
    | some x =>
      cases x with
      | static v => rfl
      | free => rfl
      | pointer j =>
        obtain ⟨h1, h2⟩ := hk i j hi hki
        exact ih g j h2 (by omega) (by omega)

theorem resolve_pointer {k : ℕ → Option (ZKind K)} {n : ℕ} (hk : ∀ i j, i < n → k i = some (.pointer j) → i < j ∧ j < n)
    (env : ℕ → K) {i j : ℕ} (hi : i < n) (hp : k i = some (.pointer j)) : zResolve k env n i = zResolve k env n j := by
  obtain ⟨h1, h2⟩ := hk i j hi hp
  obtain ⟨f, hf⟩ : ∃ f, n = f + 1 := ⟨n - 1, by omega⟩
  have : zResolve k env n i = zResolve k env f j := by rw [hf, zResolve, hp]
  rw [this]
  exact resolve_fuel hk env _ _ _ h2 (by omega) (by omega)

theorem resolve_isSome {k : ℕ → Option (ZKind K)} {n : ℕ}
    (hk : ∀ i j, i < n → k i = some (.pointer j) → i < j ∧ j < n ∧ k j ≠ none) (env : ℕ → K) :
    ∀ f i, i < n → n - i ≤ f → k i ≠ none → (zResolve k env f i).isSome = true := by
  intro f
  induction f with
  | zero => intro i hi hf; omega
  | succ f ih =>
    intro i hi hf hne
    rw [zResolve]
    cases hki : k i with
    | none => exact absurd hki hne
    | some x =>
      cases x with
      | static v => rfl
      | free => rfl
      | pointer j =>
        obtain ⟨h1, h2, h3⟩ := hk i j hi hki
        exact ih j h2 (by omega) h3

/-! ### C138 -/

/-- Redshifts can always be evaluated: pointers never go round in circles, whatever the user constructs and assigns. -/
theorem C138_defined (p : List (ZCmd K)) (env : ℕ → K) (i : ℕ) (hi : i < (zRun p ZWorld.empty).n) :
    ((zRun p ZWorld.empty).zsOf env i).isSome = true ∧
    (((zRun p ZWorld.empty).zlOf env i).isSome = true ↔ ((zRun p ZWorld.empty).lens i).kind ≠ .multi) := by
  have h := zRun_inv p
  generalize zRun p ZWorld.empty = w at *
  constructor
  · refine resolve_isSome (n := w.n) (fun a j ha hp => ?_) env _ _ hi (by omega) (by simp)
    obtain ⟨h1, h2⟩ := h.zs a j ha (by simpa using hp)
    exact ⟨h1, h2, by simp⟩
  · rw [ne_eq, ← h.kind i hi]
    constructor
    · intro hs h0
      obtain ⟨f, hf⟩ : ∃ f, w.n = f + 1 := ⟨w.n - 1, by omega⟩
      rw [ZWorld.zlOf, hf, zResolve, h0] at hs
      simp at hs
    · intro hne
      exact resolve_isSome (n := w.n) (fun a j ha hp => h.zl a j ha hp) env _ _ hi (by omega) hne

/-- Whatever is nested in a composite lens is evaluated at the source redshift of the outermost lens. -/
theorem C138_source_redshift_partial (p : List (ZCmd K)) (hp : SourceOnce p) (env : ℕ → K) (m c : ℕ)
    (h : Relation.TransGen (ZMember (zRun p ZWorld.empty)) m c) :
    (zRun p ZWorld.empty).zsOf env m = (zRun p ZWorld.empty).zsOf env c := by
  have hpt := pointsZs p hp
  have hinv := zRun_inv p
  generalize zRun p ZWorld.empty = w at *
  have one : ∀ a b, ZMember w a b → w.zsOf env a = w.zsOf env b := by
    intro a b hab
    have ha : a < w.n := (hinv.members b hab.1 a hab.2.2).trans hab.1
    exact resolve_pointer (fun i j hi hp => hinv.zs i j hi (by simpa using hp)) env ha (by rw [(hpt a b hab).2])
  induction h with
  | single h => exact one _ _ h
  | tail _ h ih => exact ih.trans (one _ _ h)

/-- Whatever is nested in a `SinglePlane` or `BatchedPlane` is evaluated at its lens redshift. -/
theorem C138_lens_redshift_partial (p : List (ZCmd K)) (hp : LensOnce p) (env : ℕ → K) (m c : ℕ)
    (h : Relation.TransGen (ZMember (zRun p ZWorld.empty)) m c) (hc : ((zRun p ZWorld.empty).lens c).kind ≠ .multi) :
    (zRun p ZWorld.empty).zlOf env m = (zRun p ZWorld.empty).zlOf env c := by
  have hpt := pointsZl p hp
  have hinv := zRun_inv p
  generalize zRun p ZWorld.empty = w at *
  have lt : ∀ a b, ZMember w a b → a < w.n := fun a b hab => (hinv.members b hab.1 a hab.2.2).trans hab.1
  have one : ∀ a b, ZMember w a b → (w.lens b).kind ≠ .multi → w.zlOf env a = w.zlOf env b ∧ (w.lens a).kind ≠ .multi := by
    intro a b hab hb
    have hz := (hpt a b hab hb).2
    refine ⟨resolve_pointer (fun i j hi hp => ⟨(hinv.zl i j hi hp).1, (hinv.zl i j hi hp).2.1⟩) env (lt a b hab) hz, ?_⟩
    rw [ne_eq, ← hinv.kind a (lt a b hab), hz]
    simp
  have main : ∀ a b, Relation.TransGen (ZMember w) a b → (w.lens b).kind ≠ .multi →
      w.zlOf env a = w.zlOf env b ∧ (w.lens a).kind ≠ .multi := by
    intro a b hab
    induction hab with
    | single h => exact one _ _ h
    | tail _ h ih =>
      intro hk
      obtain ⟨e1, k1⟩ := one _ _ h hk
      obtain ⟨e2, k2⟩ := ih k1
      exact ⟨e2.trans e1, k2⟩
  exact (main m c h hc).1

/-- The redshift of something nested in a composite lens cannot be free: the values of the free parameters do not reach it. -/
theorem C138_free_partial (p : List (ZCmd K)) (hp : SourceOnce p) (env : ℕ → K) (v : K) (m c : ℕ)
    (h : ZMember (zRun p ZWorld.empty) m c) (i : ℕ) :
    (zRun p ZWorld.empty).zsOf (Function.update env m v) i = (zRun p ZWorld.empty).zsOf env i := by
  have hz := (pointsZs p hp m c h).2
  generalize zRun p ZWorld.empty = w at *
  rw [ZWorld.zsOf, ZWorld.zsOf]
  generalize w.n = f
  induction f generalizing i with
  | zero => rfl
  | succ f ih =>
    rw [zResolve, zResolve]
    cases hk : (w.lens i).zs with
    | static a => rfl
    | free =>
      have : i ≠ m := by rintro rfl; rw [hz] at hk; cases hk
      simp [Function.update_of_ne this]
    | pointer j => exact ih j

/-- Assigning the source redshift of the outermost lens, at any later time, moves everything nested in it. -/
theorem C138_assign_partial (p : List (ZCmd K)) (c : ℕ) (v : K) (hp : SourceOnce (p ++ [.setZs c (some v)])) (env : ℕ → K) (m : ℕ)
    (h : Relation.TransGen (ZMember (zRun (p ++ [.setZs c (some v)]) ZWorld.empty)) m c) :
    (zRun (p ++ [.setZs c (some v)]) ZWorld.empty).zsOf env m = some v := by
  rw [C138_source_redshift_partial _ hp env m c h]
  have hM : ∃ b, ZMember (zRun (p ++ [.setZs c (some v)]) ZWorld.empty) b c := by
    cases h with
    | single h => exact ⟨_, h⟩
    | tail _ h => exact ⟨_, h⟩
  obtain ⟨b, h1, h2, -⟩ := hM
  rw [zRun_append] at h1 h2 ⊢
  generalize zRun p ZWorld.empty = w at *
  by_cases hc : c < w.n ∧ (w.lens c).live = true
  · have e : ((ZCmd.setZs c (some v)).run w).1 = w.setLens c { w.lens c with zs := .static v } := by
      simp [ZCmd.run, ZCmd.members, hc, ZKind.ofArg]
    rw [e] at h1 ⊢
    obtain ⟨f, hf⟩ : ∃ f, (w.setLens c { w.lens c with zs := .static v }).n = f + 1 :=
      ⟨(w.setLens c { w.lens c with zs := .static v }).n - 1, by omega⟩
    rw [ZWorld.zsOf, hf, zResolve, setLens_lens, if_pos rfl]
  · have e : ((ZCmd.setZs c (some v)).run w).1 = w := by simp [ZCmd.run, ZCmd.members, hc]
    rw [e] at h1 h2
    exact absurd ⟨h1, h2⟩ hc

/-- The lenses that are not composite, in a `SinglePlane` of `SinglePlane`s. -/
def ZWorld.leaves (w : ZWorld K) : ℕ → ℕ → Option (List ℕ)
  | 0, _ => none
  | fuel + 1, i =>
    match (w.lens i).kind with
    | .thin => some [i]
    | .single => (w.lens i).members.foldlM (fun acc m => (w.leaves fuel m).map (acc ++ ·)) []
    | _ => none

theorem deflection_leaves [AddCommMonoid K] (w : ZWorld K) (hinv : ZInv w) (envL envS : ℕ → K) (alpha : ℕ → K → K → K) (zl zs : K)
    (c : ℕ) (hc : ∀ i, i = c ∨ Relation.TransGen (ZMember w) i c → w.zlOf envL i = some zl ∧ w.zsOf envS i = some zs) :
    ∀ f i l, (i = c ∨ Relation.TransGen (ZMember w) i c) → i < w.n → (w.lens i).live = true → w.leaves f i = some l →
      w.deflection envL envS alpha f i = some ((l.map fun j => alpha j zl zs).sum) := by
  intro f
  induction f with
  | zero => intro i l _ _ _ h; simp [ZWorld.leaves] at h
  | succ f ih =>
    intro i l hi hn hl h
    rw [ZWorld.leaves] at h
    rw [ZWorld.deflection]
    cases hk : (w.lens i).kind with
    | thin =>
      rw [hk] at h
      simp only [Option.some.injEq] at h
      subst h
      obtain ⟨e1, e2⟩ := hc i hi
      simp [e1, e2]
    | single =>
      rw [hk] at h
      simp only at h ⊢
      have hM : ∀ m ∈ (w.lens i).members, ZMember w m i := fun m hm => ⟨hn, hl, hm⟩
      have hreach : ∀ m ∈ (w.lens i).members, Relation.TransGen (ZMember w) m c := by
        intro m hm
        rcases hi with rfl | hi
        · exact .single (hM m hm)
        · exact .head (hM m hm) hi
      have hlt : ∀ m ∈ (w.lens i).members, m < w.n := fun m hm => (hinv.members i hn m hm).trans hn
      have hlive := hinv.live i hn
      generalize (w.lens i).members = ms at h hreach hlt hlive
      have fold : ∀ (ms : List ℕ), (∀ m ∈ ms, Relation.TransGen (ZMember w) m c) → (∀ m ∈ ms, m < w.n) →
          (∀ m ∈ ms, (w.lens m).live = true) → ∀ (a l : List ℕ),
          ms.foldlM (fun acc m => (w.leaves f m).map (acc ++ ·)) a = some l →
          ms.foldlM (fun acc m => (w.deflection envL envS alpha f m).map (acc + ·)) ((a.map fun j => alpha j zl zs).sum)
            = some ((l.map fun j => alpha j zl zs).sum) := by
        intro ms
        induction ms with
        | nil => intro _ _ _ a l h; simp at h; subst h; rfl
        | cons m ms ihm =>
          intro h1 h2 h3 a l h
          cases hlm : w.leaves f m with
          | none => simp [hlm] at h
          | some l' =>
            have hd := ih m l' (.inr (h1 m (by simp))) (h2 m (by simp)) (h3 m (by simp)) hlm
            simp only [List.foldlM_cons, hlm, hd, Option.map_some, Option.bind_eq_bind, Option.bind_some] at h ⊢
            have := ihm (fun x hx => h1 x (by simp [hx])) (fun x hx => h2 x (by simp [hx])) (fun x hx => h3 x (by simp [hx])) _ _ h
            simpa using this
      have := fold ms hreach hlt hlive [] l h
      simpa using this
    | batched => rw [hk] at h; simp at h
    | multi => rw [hk] at h; simp at h

/-- The deflection of a `SinglePlane`, whatever is nested in it, is the sum of the deflections of the lenses in it, all at its
own redshifts. -/
theorem C138_deflection_partial [AddCommMonoid K] (p : List (ZCmd K)) (hs : SourceOnce p) (hl : LensOnce p) (envL envS : ℕ → K)
    (alpha : ℕ → K → K → K) (c f : ℕ) (l : List ℕ) (hc : c < (zRun p ZWorld.empty).n)
    (hv : ((zRun p ZWorld.empty).lens c).live = true) (hk : ((zRun p ZWorld.empty).lens c).kind = .single)
    (h : (zRun p ZWorld.empty).leaves f c = some l) :
    ∃ zl zs, (zRun p ZWorld.empty).zlOf envL c = some zl ∧ (zRun p ZWorld.empty).zsOf envS c = some zs ∧
      (zRun p ZWorld.empty).deflection envL envS alpha f c = some ((l.map fun j => alpha j zl zs).sum) := by
  obtain ⟨d1, -⟩ := C138_defined p envS c hc
  obtain ⟨-, d2⟩ := C138_defined p envL c hc
  have hkm : ((zRun p ZWorld.empty).lens c).kind ≠ .multi := by rw [hk]; simp
  obtain ⟨zs, hzs⟩ := Option.isSome_iff_exists.1 d1
  obtain ⟨zl, hzl⟩ := Option.isSome_iff_exists.1 (d2.2 hkm)
  refine ⟨zl, zs, hzl, hzs, deflection_leaves _ (zRun_inv p) envL envS alpha zl zs c (fun i hi => ?_) f c l (.inl rfl) hc hv h⟩
  rcases hi with rfl | hi
  · exact ⟨hzl, hzs⟩
  · exact ⟨(C138_lens_redshift_partial p hl envL i c hi hkm).trans hzl, (C138_source_redshift_partial p hs envS i c hi).trans hzs⟩

/-- A scene: two lenses in a `SinglePlane`, that one and a third lens in a `Multiplane` with source redshift 2, later 3. -/
def zScene : List (ZCmd ℚ) :=
  [.newThin (some 7) none, .newThin none (some 9), .newSingle [0, 1] (some (1 / 2)) none, .newThin (some 1) none,
    .newMulti [2, 3] (some 2), .setZs 4 (some 3)]

theorem zScene_once : SourceOnce zScene ∧ LensOnce zScene := by
  constructor <;> simp [SourceOnce, LensOnce, zScene, ZCmd.members, ZCmd.writesZs, ZCmd.writesZl, ZCmd.takesZl]

example : (List.range 5).map ((zRun zScene ZWorld.empty).zsOf fun _ => 0) = [some 3, some 3, some 3, some 3, some 3] ∧
    (List.range 5).map ((zRun zScene ZWorld.empty).zlOf fun _ => 0) = [some (1 / 2), some (1 / 2), some (1 / 2), some 1, none] ∧
    (zRun zScene ZWorld.empty).getZls (fun _ => 0) 4 = some [1 / 2, 1] := by
  decide +kernel

example : ∃ zl zs, (zRun zScene ZWorld.empty).zlOf (fun _ => 0) 2 = some zl ∧ (zRun zScene ZWorld.empty).zsOf (fun _ => 0) 2 = some zs ∧
    (zRun zScene ZWorld.empty).deflection (fun _ => 0) (fun _ => 0) (fun i a b => i + a * b) 5 2
      = some ((0 + zl * zs) + ((1 + zl * zs) + 0)) :=
  C138_deflection_partial zScene zScene_once.1 zScene_once.2 _ _ _ 2 5 [0, 1] (by decide) rfl rfl rfl

example := C138_source_redshift_partial zScene zScene_once.1 (fun _ => 0) 0 4
  (.tail (b := 2) (.single ⟨by decide, by decide, by decide⟩) ⟨by decide, by decide, by decide⟩)

/-- The claim: the members of a composite lens are evaluated at its source redshift. -/
def C138_statement : Prop :=
  ∀ (p : List (ZCmd ℚ)) (env : ℕ → ℚ) (m c : ℕ), ZMember (zRun p ZWorld.empty) m c →
    (zRun p ZWorld.empty).zsOf env m = (zRun p ZWorld.empty).zsOf env c

/-- A lens given to two composite lenses follows the second only: the first evaluates it at a redshift that is not its own.
The second constructor neither raises nor warns. -/
theorem C138_shared_fails (u v : ℚ) (env : ℕ → ℚ) :
    ∀ w, w = zRun [.newThin none none, .newSingle [0] (some 1) (some u), .newSingle [0] (some 1) (some v)] ZWorld.empty →
      ZMember w 0 1 ∧ w.zsOf env 1 = some u ∧ w.zsOf env 0 = some v ∧
      ((ZCmd.newSingle [0] (some 1) (some v)).run (zRun [.newThin none none, .newSingle [0] (some 1) (some u)] ZWorld.empty)).2
        = ([], none) := by
  rintro _ rfl
  exact ⟨⟨by change 1 < 3; omega, rfl, by change 0 ∈ [0]; simp⟩, rfl, rfl, rfl⟩

example := C138_shared_fails 2 3 (fun _ => 0) _ rfl

theorem C138_fails : ¬ C138_statement := by
  intro h
  obtain ⟨h1, h2, h3, -⟩ := C138_shared_fails 2 3 (fun _ => 0) _ rfl
  have := h _ (fun _ => 0) 0 1 h1
  rw [h2, h3] at this
  norm_num at this

/-- A constructor that raises leaves marks: a `SinglePlane` of a lens and a `Multiplane` is refused, but the lens has lost its
redshifts. -/
theorem C138_exception_fails (a b u v : ℚ) (env : ℕ → ℚ) :
    ∀ w, w = zRun [.newThin (some a) (some b), .newMulti [] none] ZWorld.empty →
      w.zlOf env 0 = some a ∧ w.zsOf env 0 = some b ∧
      ((ZCmd.newSingle [0, 1] (some u) (some v)).run w).2.2 = some .attributeError ∧
      ((ZCmd.newSingle [0, 1] (some u) (some v)).run w).1.zlOf env 0 = some u ∧
      ((ZCmd.newSingle [0, 1] (some u) (some v)).run w).1.zsOf env 0 = some v := by
  rintro _ rfl
  refine ⟨?_, ?_, ?_, ?_, ?_⟩ <;> rfl

example := C138_exception_fails 1 2 3 4 (fun _ => 0) _ rfl

/-- `get_z_ls` of a `Multiplane` gives the current lens redshifts of its members, in the order listed, unless one of them is a
`Multiplane`; the constructor accepts that one. -/
theorem C138_z_ls (p : List (ZCmd K)) (env : ℕ → K) (c : ℕ) (hc : c < (zRun p ZWorld.empty).n) :
    ((∃ m ∈ ((zRun p ZWorld.empty).lens c).members, ((zRun p ZWorld.empty).lens m).kind = .multi) ↔
      (zRun p ZWorld.empty).getZls env c = none) ∧
    ∀ l, (zRun p ZWorld.empty).getZls env c = some l →
      ((zRun p ZWorld.empty).lens c).members.map ((zRun p ZWorld.empty).zlOf env) = l.map some := by
  have hd := fun m hm => (C138_defined p env m hm).2
  have hinv := zRun_inv p
  generalize zRun p ZWorld.empty = w at *
  have hlt : ∀ m ∈ (w.lens c).members, m < w.n := fun m hm => (hinv.members c hc m hm).trans hc
  rw [ZWorld.getZls]
  generalize (w.lens c).members = ms at *
  induction ms with
  | nil => simp
  | cons m ms ih =>
    obtain ⟨i1, i2⟩ := ih fun x hx => hlt x (by simp [hx])
    have hm := hd m (hlt m (by simp))
    cases hz : w.zlOf env m with
    | none =>
      rw [hz] at hm
      have : (w.lens m).kind = .multi := by simpa using hm
      simp [hz, this]
    | some v =>
      rw [hz] at hm
      have : (w.lens m).kind ≠ .multi := by simpa using hm
      cases hr : ms.mapM (w.zlOf env) with
      | none =>
        rw [hr] at i1
        have := i1.2 rfl
        simp [hz, hr, this]
      | some l =>
        rw [hr] at i1
        have h0 : ¬ ∃ x ∈ ms, (w.lens x).kind = .multi := fun h => by simpa using i1.1 h
        have := i2 l hr
        simp [*]

example : ((ZCmd.newMulti [0] (some (1 : ℚ))).run (zRun [.newMulti [] none] ZWorld.empty)).2.2 = none ∧
    (zRun [.newMulti [] none, .newMulti [0] (some (1 : ℚ))] ZWorld.empty).getZls (fun _ => 0) 1 = none := by
  decide +kernel

/-! ### Which members are accepted, and the warnings -/

theorem handDown_ok (k : ZLensKind) (c : ℕ) (ms : List ℕ) (w : ZWorld K) :
    (zHandDown k c ms w).2.2 = none ↔ (k = .multi ∨ ∀ m ∈ ms, (w.lens m).zl ≠ none) := by
  induction ms generalizing w with
  | nil => simp [zHandDown, zSeq]
  | cons m ms ih =>
    by_cases hk : k = .multi
    · have e : (zHandDown k c (m :: ms) w).2.2 = (zHandDown k c ms (handDownZs c m w).1).2.2 := by
        simp [zHandDown, List.flatMap_cons, hk, zSeq, handDownZs]
      rw [e, ih]
      simp [hk]
    · cases hz : (w.lens m).zl with
      | none =>
        have e : (zHandDown k c (m :: ms) w).2.2 = some .attributeError := by
          simp [zHandDown, List.flatMap_cons, hk, zSeq, handDownZl, hz]
        rw [e]
        simp [hk, hz]
      | some x =>
        have e : (zHandDown k c (m :: ms) w).2.2 = (zHandDown k c ms (handDownZs c m (handDownZl c m w).1).1).2.2 := by
          simp [zHandDown, List.flatMap_cons, hk, zSeq, handDownZl, hz, handDownZs]
        have h1 := (handDownZl_spec c m w).1
        have h2 := (handDownZs_spec c m (handDownZl c m w).1).2.2.1
        have same : ∀ i, ((handDownZs c m (handDownZl c m w).1).1.lens i).zl ≠ none ↔ (w.lens i).zl ≠ none := by
          intro i
          rw [h2 i]
          rcases h1.zl i with e | ⟨-, e1, e2⟩
          · rw [e]
          · rw [e2]; simp [e1]
        rw [e, ih]
        simp only [hk, false_or, List.mem_cons, forall_eq_or_imp, same]
        simp [hz]

/-- A `SinglePlane` can be made of all lenses but a `Multiplane`, a `Multiplane` of all lenses. -/
theorem C138_accepts (p : List (ZCmd K)) (ms : List ℕ) (zl zs : Option K)
    (hb : ∀ m ∈ ms, m < (zRun p ZWorld.empty).n ∧ ((zRun p ZWorld.empty).lens m).live = true) :
    (((ZCmd.newSingle ms zl zs).run (zRun p ZWorld.empty)).2.2 = none ↔
      ∀ m ∈ ms, ((zRun p ZWorld.empty).lens m).kind ≠ .multi) ∧
    ((ZCmd.newMulti ms zs).run (zRun p ZWorld.empty)).2.2 = none := by
  have hinv := zRun_inv p
  generalize zRun p ZWorld.empty = w at *
  have hall : ms.all (fun m => m < w.n && (w.lens m).live) = true := by simpa using hb
  have run : ∀ k z, (zConstruct k ms z (.ofArg zs) w).2.2 = (zHandDown k w.n ms
      ⟨w.n + 1, Function.update w.lens w.n ⟨k, ms, z, .ofArg zs, false⟩⟩).2.2 := by
    intro k z
    rw [zConstruct]
    rcases hd : zHandDown k w.n ms (⟨w.n + 1, Function.update w.lens w.n ⟨k, ms, z, .ofArg zs, false⟩⟩ : ZWorld K) with ⟨a, b, r⟩
    cases r <;> simp
  constructor
  · have e : (ZCmd.newSingle ms zl zs).run w = zConstruct .single ms (some (.ofArg zl)) (.ofArg zs) w := by
      simp [ZCmd.run, ZCmd.members, hall]
    rw [e, run, handDown_ok]
    simp only [reduceCtorEq, false_or]
    refine forall₂_congr fun m hm => ?_
    rw [Function.update_of_ne (hb m hm).1.ne, ne_eq, hinv.kind m (hb m hm).1]
  · have e : (ZCmd.newMulti ms zs).run w = zConstruct .multi ms none (.ofArg zs) w := by
      simp [ZCmd.run, ZCmd.members, hall]
    rw [e, run, handDown_ok]
    simp

example := (C138_accepts zScene [0, 3] none none (by decide)).1.2 (by decide)

/-- A warning is issued for exactly the members with a fixed redshift (each listed once, none refused). -/
theorem C138_warnings (p : List (ZCmd K)) (ms : List ℕ) (zl zs : Option K) (hn : ms.Nodup)
    (hb : ∀ m ∈ ms, m < (zRun p ZWorld.empty).n ∧ ((zRun p ZWorld.empty).lens m).live = true)
    (hm : ∀ m ∈ ms, ((zRun p ZWorld.empty).lens m).kind ≠ .multi) (i : ℕ) :
    (.lensRedshift i ∈ ((ZCmd.newSingle ms zl zs).run (zRun p ZWorld.empty)).2.1 ↔
      i ∈ ms ∧ ∃ v, ((zRun p ZWorld.empty).lens i).zl = some (.static v)) ∧
    (.sourceRedshift i ∈ ((ZCmd.newSingle ms zl zs).run (zRun p ZWorld.empty)).2.1 ↔
      i ∈ ms ∧ ∃ v, ((zRun p ZWorld.empty).lens i).zs = .static v) := by
  have hinv := zRun_inv p
  generalize zRun p ZWorld.empty = w at *
  have hall : ms.all (fun m => m < w.n && (w.lens m).live) = true := by simpa using hb
  have e : (ZCmd.newSingle ms zl zs).run w = zConstruct .single ms (some (.ofArg zl)) (.ofArg zs) w := by
    simp [ZCmd.run, ZCmd.members, hall]
  have run : (zConstruct .single ms (some (.ofArg zl)) (.ofArg zs) w).2.1 = (zHandDown .single w.n ms
      ⟨w.n + 1, Function.update w.lens w.n ⟨.single, ms, some (.ofArg zl), .ofArg zs, false⟩⟩).2.1 := by
    rw [zConstruct]
    rcases hd : zHandDown .single w.n ms
      (⟨w.n + 1, Function.update w.lens w.n ⟨.single, ms, some (.ofArg zl), .ofArg zs, false⟩⟩ : ZWorld K) with ⟨a, b, r⟩
    cases r <;> simp
  rw [e, run]
  have old : ∀ m ∈ ms, (⟨w.n + 1, Function.update w.lens w.n ⟨.single, ms, some (.ofArg zl), .ofArg zs, false⟩⟩ : ZWorld K).lens m
      = w.lens m := fun m h => Function.update_of_ne (hb m h).1.ne _ _
  generalize (⟨w.n + 1, Function.update w.lens w.n ⟨.single, ms, some (.ofArg zl), .ofArg zs, false⟩⟩ : ZWorld K) = w1 at old
  have hz : ∀ m ∈ ms, (w.lens m).zl ≠ none := fun m h h0 => hm m h ((hinv.kind m (hb m h).1).1 h0)
  clear hall e run hb hm
  have st : ∀ k : ZKind K, k.isStatic = true ↔ ∃ v, k = .static v := by intro k; cases k <;> simp [ZKind.isStatic]
  generalize w.n = c
  induction ms generalizing w1 with
  | nil => simp [zHandDown, zSeq]
  | cons m ms ih =>
    obtain ⟨hmn, hn'⟩ := List.nodup_cons.1 hn
    obtain ⟨x, hx⟩ := Option.ne_none_iff_exists'.1 (hz m (by simp))
    have hx1 : (w1.lens m).zl = some x := by rw [old m (by simp), hx]
    obtain ⟨w2, hw2⟩ : ∃ w2, w2 = (handDownZs c m (handDownZl c m w1).1).1 := ⟨_, rfl⟩
    have same : ∀ j, j ≠ m → w2.lens j = w1.lens j := by
      intro j hj
      simp [hw2, handDownZs, handDownZl, hx1, ZWorld.setLens, Function.update_of_ne hj]
    have e : (zHandDown .single c (m :: ms) w1).2.1 = (if x.isStatic then [.lensRedshift m] else []) ++
        ((if (w1.lens m).zs.isStatic then [.sourceRedshift m] else []) ++ (zHandDown .single c ms w2).2.1) := by
      simp [zHandDown, List.flatMap_cons, zSeq, handDownZl, hx1, handDownZs, hw2, ZWorld.setLens]
    obtain ⟨i1, i2⟩ := ih hn' w2 (fun j hj => (same j (fun h => hmn (h ▸ hj))).trans (old j (by simp [hj]))) fun j hj => hz j (by simp [hj])
    rw [e, old m (by simp)]
    simp only [List.mem_append, i1, i2]
    constructor
    · by_cases him : i = m
      · subst him
        by_cases hs : x.isStatic = true
        · obtain ⟨v, rfl⟩ := (st x).1 hs
          simp [hs, hx]
        · have : ¬ ∃ v, x = .static v := fun h => hs ((st x).2 h)
          have h' : ¬ ∃ v, (w.lens i).zl = some (.static v) := by rw [hx]; simpa using this
          simp only [h', and_false, iff_false]
          rw [if_neg hs]
          split_ifs <;> simp
      · split_ifs <;> simp [him]
    · by_cases him : i = m
      · subst him
        by_cases hs : (w.lens i).zs.isStatic = true
        · have h' := (st _).1 hs
          simp [hs, h']
        · have : ¬ ∃ v, (w.lens i).zs = .static v := fun h => hs ((st _).2 h)
          simp only [this, and_false, iff_false]
          rw [if_neg hs]
          split_ifs <;> simp
      · split_ifs <;> simp [him]

example : ((ZCmd.newSingle [0, 1] none (some (1 : ℚ))).run (zRun [.newThin (some 1) none, .newThin none (some 2)] ZWorld.empty)).2
    = ([.lensRedshift 0, .sourceRedshift 1], none) := by
  decide +kernel

end Caustics
