import Verif.Model.ToDevice
import Mathlib.Logic.Relation
import Mathlib.Data.List.Basic

/-! `to` on a graph of objects: every object below is converted, however often it is visited, and no other. -/

namespace Caustics

namespace Dev

variable {Cfg : Type} {L : Lib Cfg}

/-- Children have smaller numbers. -/
def WF (s : Store Cfg) : Prop := ∀ i, ∀ c ∈ (s i).children, c < i

/-- `j` is `i` or below `i`. -/
def Reach (s : Store Cfg) : ℕ → ℕ → Prop := Relation.ReflTransGen fun a b => b ∈ (s a).children

theorem Reach.iff {s : Store Cfg} {i j : ℕ} : Reach s i j ↔ j = i ∨ ∃ c ∈ (s i).children, Reach s c j := by
  constructor
  · intro h
    rcases Relation.ReflTransGen.cases_head h with h | ⟨c, hc, h⟩
    · exact .inl h.symm
    · exact .inr ⟨c, hc, h⟩
  · rintro (rfl | ⟨c, hc, h⟩)
    · exact .refl
    · exact .head hc h

theorem Reach.congr {s s' : Store Cfg} (h : ∀ i, (s' i).children = (s i).children) : Reach s' = Reach s := by
  unfold Reach
  simp only [h]

theorem backendTo_idem (dev : Option ℕ) (dt : Option DType) (a : TArr) :
    backendTo L dev dt (backendTo L dev dt a) = backendTo L dev dt a := by
  cases dev <;> cases dt <;> simp [backendTo, Function.comp_def, L.idem]

theorem ownTo_idem (dev : Option ℕ) (dt : Option DType) (o : Own Cfg) :
    ownTo L dev dt (ownTo L dev dt o) = ownTo L dev dt o := by
  cases o <;> simp [ownTo, backendTo_idem, Function.comp_def]

/-- The object with its own arrays converted. -/
def conv (L : Lib Cfg) (dev : Option ℕ) (dt : Option DType) (o : Obj Cfg) : Obj Cfg :=
  { o with own := ownTo L dev dt o.own }

theorem conv_idem (dev : Option ℕ) (dt : Option DType) (o : Obj Cfg) : conv L dev dt (conv L dev dt o) = conv L dev dt o := by
  simp [conv, ownTo_idem]

open Classical in
theorem toRec_eq (dev : Option ℕ) (dt : Option DType) : ∀ (n : ℕ) (s : Store Cfg) (i : ℕ), WF s → i < n →
    toRec L dev dt n s i = fun j => if Reach s i j then conv L dev dt (s j) else s j := by
  intro n
  induction n with
  | zero => intro s i _ h; omega
  | succ n ih =>
    intro s i hs hi
    have key : ∀ cs : List ℕ, (∀ c ∈ cs, c < i) → ∀ s1 : Store Cfg, (∀ j, (s1 j).children = (s j).children) →
        cs.foldl (fun s c => toRec L dev dt n s c) s1
          = fun j => if ∃ c ∈ cs, Reach s c j then conv L dev dt (s1 j) else s1 j := by
      intro cs
      induction cs with
      | nil => intro _ s1 _; simp
      | cons c cs ihc =>
        intro hc s1 h1
        have hw : WF s1 := fun a b hb => hs a b (by rwa [h1] at hb)
        have hci : c < n := by
          have := hc c (by simp)
          omega
        rw [List.foldl_cons, ih s1 c hw hci, Reach.congr h1, ihc (fun c h => hc c (by simp [h]))]
        · funext j
          by_cases h2 : ∃ c ∈ cs, Reach s c j <;> by_cases h3 : Reach s c j <;> simp [h2, h3, conv_idem]
        · intro j
          by_cases h3 : Reach s c j <;> simp [h3, conv, h1]
    simp only [toRec]
    rw [key _ (hs i) s fun _ => rfl]
    funext j
    by_cases hj : j = i
    · subst hj
      rw [Function.update_self]
      have hn : Reach s j j := .refl
      by_cases h2 : ∃ c ∈ (s j).children, Reach s c j
      · simp only [h2, hn, if_true]; exact conv_idem _ _ _
      · simp only [h2, hn, if_true, if_false]; rfl
    · rw [Function.update_of_ne hj]
      have : Reach s i j ↔ ∃ c ∈ (s i).children, Reach s c j := by
        rw [Reach.iff]; simp [hj]
      simp only [this]

theorem step_children (s : Store Cfg) (hs : WF s) (op : Op Cfg) (j : ℕ) : (step L s op j).children = (s j).children := by
  classical
  cases op with
  | move i dev dt =>
    simp only [step, objTo]
    rw [toRec_eq dev dt _ s i hs (Nat.lt_succ_self i)]
    by_cases h : Reach s i j <;> simp [h, conv]
  | mode i m =>
    by_cases h : j = i
    · subst h; simp [step]
    · simp [step, h]
  | sim i c =>
    by_cases h : j = i
    · subst h; simp [step]
    · simp [step, h]

theorem WF.congr {s s' : Store Cfg} (hs : WF s) (h : ∀ i, (s' i).children = (s i).children) : WF s' :=
  fun a b hb => hs a b (by rwa [h] at hb)

theorem run_children (s : Store Cfg) (hs : WF s) (ops : List (Op Cfg)) (j : ℕ) :
    (run L s ops j).children = (s j).children := by
  induction ops generalizing s with
  | nil => rfl
  | cons op ops ih =>
    have h := step_children (L := L) s hs op
    show (run L (step L s op) ops j).children = _
    rw [ih _ (hs.congr h), h]

/-- A property of objects kept by each of the three ways to change one is kept by every sequence. -/
theorem run_invariant (P : ℕ → Own Cfg → Prop) (ops : List (Op Cfg))
    (hto : ∀ i dev dt, .move i dev dt ∈ ops → ∀ j o, P j o → P j (ownTo L dev dt o))
    (hmode : ∀ i m, .mode i m ∈ ops → ∀ o, P i o → P i (setMode L m o))
    (hsim : ∀ i c, .sim i c ∈ ops → ∀ o, P i o → P i (setSim L c o)) :
    ∀ s : Store Cfg, WF s → (∀ j, P j (s j).own) → ∀ j, P j (run L s ops j).own := by
  classical
  induction ops with
  | nil => intro s _ h; exact h
  | cons op ops ih =>
    intro s hs h
    refine ih (fun i dev dt hm => hto i dev dt (by simp [hm])) (fun i m hm => hmode i m (by simp [hm]))
      (fun i c hm => hsim i c (by simp [hm])) (step L s op) (hs.congr (step_children s hs op)) ?_
    intro j
    cases op with
    | move i dev dt =>
      simp only [step, objTo]
      rw [toRec_eq dev dt _ s i hs (Nat.lt_succ_self i)]
      by_cases hr : Reach s i j
      · simp only [hr, if_true]; exact hto i dev dt (by simp) j _ (h j)
      · simp only [hr, if_false]; exact h j
    | mode i m =>
      by_cases hj : j = i
      · subst hj; simp only [step, Function.update_self]; exact hmode j m (by simp) _ (h j)
      · simp only [step, Function.update_of_ne hj]; exact h j
    | sim i c =>
      by_cases hj : j = i
      · subst hj; simp only [step, Function.update_self]; exact hsim j c (by simp) _ (h j)
      · simp only [step, Function.update_of_ne hj]; exact h j

theorem mem_pixConv {a pot ax ay : TArr} {potT axT ayT : Option TArr} {m : ConvMode} {k : ℕ} :
    a ∈ (Own.pixConv (Cfg := Cfg) pot ax ay potT axT ayT m k).arrays ↔
      a = pot ∨ a = ax ∨ a = ay ∨ potT = some a ∨ axT = some a ∨ ayT = some a := by
  simp only [Own.arrays, List.mem_cons, List.mem_append, Option.mem_toList]
  tauto

/-- The arrays of a converted object, one by one. -/
theorem ownTo_arrays (dev : Option ℕ) (dt : Option DType) (o : Own Cfg) {b : TArr} (hb : b ∈ (ownTo L dev dt o).arrays) :
    ∃ a ∈ o.arrays, ∃ t, b = backendTo L dev t a := by
  cases o with
  | plain => simp [ownTo, Own.arrays] at hb
  | param v => cases v <;> simp [ownTo, Own.arrays] at hb ⊢; exact ⟨_, hb⟩
  | cosmology xg yg => simp [ownTo, Own.arrays] at hb ⊢; rcases hb with h | h <;> [left; right] <;> exact ⟨_, h⟩
  | multipole m => simp [ownTo, Own.arrays] at hb ⊢; exact ⟨_, hb⟩
  | pixConv pot ax ay potT axT ayT m k =>
    rw [ownTo, mem_pixConv] at hb
    simp only [mem_pixConv]
    rcases hb with h | h | h | h | h | h
    · exact ⟨pot, by simp, _, h⟩
    · exact ⟨ax, by simp, _, h⟩
    · exact ⟨ay, by simp, _, h⟩
    · obtain ⟨a, ha, rfl⟩ := Option.map_eq_some_iff.1 h; exact ⟨a, by simp [ha], _, rfl⟩
    · obtain ⟨a, ha, rfl⟩ := Option.map_eq_some_iff.1 h; exact ⟨a, by simp [ha], _, rfl⟩
    · obtain ⟨a, ha, rfl⟩ := Option.map_eq_some_iff.1 h; exact ⟨a, by simp [ha], _, rfl⟩
  | lensSource gx gy w c x0 y0 =>
    simp [ownTo, Own.arrays] at hb ⊢
    rcases hb with h | h | h
    · exact .inl ⟨_, h⟩
    · exact .inr (.inl ⟨_, h⟩)
    · exact .inr (.inr ⟨_, h⟩)

theorem setMode_arrays (m : ConvMode) (o : Own Cfg) {b : TArr} (hb : b ∈ (setMode L m o).arrays) :
    ∃ a ∈ o.arrays, b = a ∨ b = rfft2 L a := by
  cases o with
  | pixConv pot ax ay potT axT ayT m' k =>
    cases m
    · rw [setMode, mem_pixConv] at hb
      simp only [mem_pixConv]
      rcases hb with h | h | h | h | h | h
      · exact ⟨pot, by simp, .inl h⟩
      · exact ⟨ax, by simp, .inl h⟩
      · exact ⟨ay, by simp, .inl h⟩
      · exact ⟨pot, by simp, .inr (Option.some.inj h).symm⟩
      · exact ⟨ax, by simp, .inr (Option.some.inj h).symm⟩
      · exact ⟨ay, by simp, .inr (Option.some.inj h).symm⟩
    · rw [setMode, mem_pixConv] at hb
      simp only [mem_pixConv]
      rcases hb with h | h | h | h | h | h
      · exact ⟨pot, by simp, .inl h⟩
      · exact ⟨ax, by simp, .inl h⟩
      · exact ⟨ay, by simp, .inl h⟩
      · exact ⟨pot, by simp, .inl (Option.some.inj h).symm⟩
      · exact ⟨ax, by simp, .inl (Option.some.inj h).symm⟩
      · exact ⟨ay, by simp, .inl (Option.some.inj h).symm⟩
  | _ => exact ⟨b, hb, .inl rfl⟩

end Dev

end Caustics
