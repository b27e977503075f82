import Verif.Spec.BuildSim
import Mathlib.Data.List.Perm.Subperm
import Mathlib.Data.List.Nodup
import Mathlib.Tactic.Common

/-! Lemmas about the configuration heap. -/

namespace Caustics

theorem dget_mem {d : List (String × YVal)} {k : String} {v : YVal} (h : dget d k = some v) : (k, v) ∈ d := by
  unfold dget at h
  cases hf : d.find? (fun p => p.1 = k) with
  | none => rw [hf] at h; cases h
  | some p =>
    rw [hf] at h
    simp only [Option.map_some, Option.some.injEq] at h
    have h1 := List.mem_of_find?_eq_some hf
    have h2 := List.find?_some hf
    simp only [decide_eq_true_eq] at h2
    rw [← h, ← h2]
    exact h1

theorem dget_none {d : List (String × YVal)} {k : String} : dget d k = none ↔ k ∉ d.map Prod.fst := by
  unfold dget
  rw [Option.map_eq_none_iff, List.find?_eq_none]
  simp only [decide_eq_true_eq, List.mem_map, not_exists, not_and]

theorem dget_of_mem {d : List (String × YVal)} (hn : (d.map Prod.fst).Nodup) {k : String} {v : YVal}
    (h : (k, v) ∈ d) : dget d k = some v := by
  induction d with
  | nil => cases h
  | cons p d ih =>
    rw [List.map_cons, List.nodup_cons] at hn
    unfold dget
    rw [List.find?_cons]
    rcases List.mem_cons.1 h with rfl | h
    · simp
    · have : p.1 ≠ k := by
        rintro rfl
        exact hn.1 (List.mem_map.2 ⟨(p.1, v), h, rfl⟩)
      simp only [this, decide_false]
      exact ih hn.2 h

theorem dset_new {d : List (String × YVal)} {k : String} {v : YVal} (h : dget d k = none) :
    dset d k v = d ++ [(k, v)] := by
  rw [dget_none] at h
  induction d with
  | nil => rfl
  | cons p d ih =>
    rw [List.map_cons, List.mem_cons, not_or] at h
    unfold dset
    rw [if_neg (fun hc => h.1 hc.symm), ih h.2]
    rfl

theorem dset_map {d : List (String × YVal)} {k : String} {v : YVal} (hn : (d.map Prod.fst).Nodup)
    (h : k ∈ d.map Prod.fst) : dset d k v = d.map fun kv => if kv.1 = k then (k, v) else kv := by
  induction d with
  | nil => cases h
  | cons p d ih =>
    rw [List.map_cons, List.nodup_cons] at hn
    unfold dset
    rw [List.map_cons]
    by_cases hp : p.1 = k
    · rw [if_pos hp, if_pos hp]
      congr 1
      symm
      calc d.map (fun kv => if kv.1 = k then (k, v) else kv) = d.map id := by
            refine List.map_congr_left fun kv hkv => ?_
            rw [if_neg]
            · rfl
            · intro hc
              exact hn.1 (by rw [hp, ← hc]; exact List.mem_map_of_mem hkv)
        _ = d := List.map_id d
    · rw [if_neg hp, if_neg hp, ih hn.2]
      rw [List.map_cons, List.mem_cons] at h
      rcases h with h | h
      · exact absurd h.symm hp
      · exact h

/-- Dicts that differ in a scalar entry are different. -/
theorem yeq_dict_false {h : YHeap} {p q : ℕ} {k : String} {v : YVal} (hpq : p ≠ q) (hp : (k, v) ∈ h p)
    (hq : ∀ fuel w, dget (h q) k = some w → yeq h fuel v w = false) (fuel : ℕ) :
    yeq h fuel (.dict p) (.dict q) = false := by
  cases fuel with
  | zero => simp [yeq, hpq]
  | succ fuel =>
    unfold yeq
    simp only [hpq, decide_false, Bool.false_or, Bool.and_eq_false_iff]
    right
    rw [List.all_eq_false]
    refine ⟨(k, v), hp, ?_⟩
    cases hw : dget (h q) k with
    | none => simp
    | some w => simp [hq fuel w hw]

theorem yeq_dict_self (h : YHeap) (fuel p : ℕ) : yeq h fuel (.dict p) (.dict p) = true := by
  cases fuel <;> simp [yeq]

/-- What the search over the earlier entries finds. -/
theorem matchEntry_pre (h : YHeap) (fuel : ℕ) (name : String) (p a : ℕ) (post : List (String × ℕ)) :
    ∀ (pre : List (String × ℕ)) (s : ℕ), name ∉ pre.map Prod.fst →
      matchEntry h fuel name (.dict p) (pre ++ (name, a) :: post) s
        = (pre.findIdx? fun e => yeq h fuel (.dict e.2) (.dict p)).map (· + s)
  | [], s, _ => by simp [matchEntry]
  | e :: pre, s, hn => by
    rw [List.map_cons, List.mem_cons, not_or] at hn
    rw [List.cons_append, matchEntry, if_neg (fun hc => hn.1 hc.symm), List.findIdx?_cons]
    by_cases hy : yeq h fuel (.dict e.2) (.dict p) = true
    · simp [hy]
    · rw [Bool.not_eq_true] at hy
      simp only [hy, Bool.false_eq_true, if_false]
      rw [matchEntry_pre h fuel name p a post pre (s + 1) hn.2]
      cases pre.findIdx? fun e => yeq h fuel (.dict e.2) (.dict p) with
      | none => rfl
      | some j => simp only [Option.map_some, Option.some.injEq]; omega

theorem matchEntry_scalar (h : YHeap) (fuel : ℕ) (name : String) {v : YVal} (hv : ∀ p, v ≠ .dict p) :
    ∀ (es : List (String × ℕ)) (s : ℕ), matchEntry h fuel name v es s = none
  | [], _ => rfl
  | e :: es, s => by
    unfold matchEntry
    split
    · rfl
    · cases v with
      | dict p => exact absurd rfl (hv p)
      | atom _ => exact matchEntry_scalar h fuel name hv es (s + 1)
      | list _ => exact matchEntry_scalar h fuel name hv es (s + 1)
      | obj _ => exact matchEntry_scalar h fuel name hv es (s + 1)

/-- The loop over the keywords of one entry, if the search finds what it should. -/
theorem resolveKeys_eq {entries pre : List (String × ℕ)} {fuel a : ℕ} {name : String} {d : List (String × YVal)}
    (hn : (d.map Prod.fst).Nodup) (hname : "name" ∉ d.map Prod.fst) (H : YHeap)
    (hm : ∀ H' : YHeap, (∀ p, p ≠ a → H' p = H p) → dget (H' a) "name" = none → ∀ kv ∈ d,
      matchEntry H' fuel name kv.2 entries 0 = match kv.2 with
        | .dict p => pre.findIdx? fun e => decide (e.2 = p)
        | _ => none) :
    ∀ (keys : List String) (H' : YHeap), (∀ k ∈ keys, k ∈ d.map Prod.fst) → keys.Nodup →
      (∀ p, p ≠ a → H' p = H p) →
      H' a = d.map (fun kv => if kv.1 ∈ keys then kv else (kv.1, resolved pre kv.2)) →
      (∀ p, p ≠ a → resolveKeys entries fuel name a keys H' p = H p) ∧
        resolveKeys entries fuel name a keys H' a = d.map fun kv => (kv.1, resolved pre kv.2)
  | [], H', _, _, h1, h2 => by
    refine ⟨h1, ?_⟩
    rw [resolveKeys, h2]
    simp
  | key :: keys, H', hk, hkn, h1, h2 => by
    rw [List.nodup_cons] at hkn
    have hfst : (H' a).map Prod.fst = d.map Prod.fst := by
      rw [h2, List.map_map]
      refine List.map_congr_left fun kv _ => ?_
      simp only [Function.comp]
      split <;> rfl
    obtain ⟨kv, hkv, hkey⟩ := List.mem_map.1 (hk key List.mem_cons_self)
    obtain ⟨k', v⟩ := kv
    simp only at hkey
    subst hkey
    have hget : dget (H' a) k' = some v := by
      refine dget_of_mem (by rw [hfst]; exact hn) ?_
      rw [h2, List.mem_map]
      exact ⟨(k', v), hkv, by simp⟩
    have hnm : dget (H' a) "name" = none := by rw [dget_none, hfst]; exact hname
    have hmv := hm H' h1 hnm (k', v) hkv
    simp only at hmv
    have uniq : ∀ kv ∈ d, kv.1 = k' → kv.2 = v := by
      rintro ⟨k2, v2⟩ h3 rfl
      have e1 := dget_of_mem hn h3
      have e2 := dget_of_mem hn hkv
      rw [e1, Option.some.injEq] at e2
      exact e2
    unfold resolveKeys
    rw [hget]
    simp only
    cases hres : matchEntry H' fuel name v entries 0 with
    | none =>
      simp only
      have hv : resolved pre v = v := by
        rw [hres] at hmv
        unfold resolved
        cases v with
        | dict p => simp only at hmv ⊢; rw [← hmv]
        | _ => rfl
      refine resolveKeys_eq hn hname H hm keys H' (fun k hk' => hk k (List.mem_cons_of_mem _ hk')) hkn.2 h1 ?_
      rw [h2]
      refine List.map_congr_left fun kv hkv' => ?_
      by_cases hc : kv.1 = k'
      · have hu := uniq kv hkv' hc
        rw [if_pos (by rw [hc]; exact List.mem_cons_self), if_neg (by rw [hc]; exact hkn.1)]
        rw [hu, hv, ← hu]
      · simp [hc]
    | some i =>
      simp only
      have hv : resolved pre v = .obj i := by
        rw [hres] at hmv
        unfold resolved
        cases v with
        | dict p => simp only at hmv ⊢; rw [← hmv]
        | _ => cases hmv
      refine resolveKeys_eq hn hname H hm keys _ (fun k hk' => hk k (List.mem_cons_of_mem _ hk')) hkn.2 ?_ ?_
      · intro p hp
        simp only [hp, if_false]
        exact h1 p hp
      · simp only [if_true]
        rw [dset_map (by rw [hfst]; exact hn) (by rw [hfst]; exact hk k' List.mem_cons_self), h2, List.map_map]
        refine List.map_congr_left fun kv hkv' => ?_
        simp only [Function.comp]
        by_cases hc : kv.1 = k'
        · have hu := uniq kv hkv' hc
          have hin : kv.1 ∈ k' :: keys := by rw [hc]; exact List.mem_cons_self
          have hout : kv.1 ∉ keys := by rw [hc]; exact hkn.1
          simp only [hin, hout, if_true, if_false]
          rw [if_pos hc, hu, hv, hc]
        · have : (kv.1 ∈ k' :: keys) ↔ kv.1 ∈ keys := by simp [hc]
          simp only [this]
          split <;> simp [hc]

/-- Dicts with different keys are different. -/
theorem yeq_dict_keys {h : YHeap} {p q : ℕ} {k : String} (hp : ((h p).map Prod.fst).Nodup)
    (hkp : k ∉ (h p).map Prod.fst) (hkq : k ∈ (h q).map Prod.fst) (fuel : ℕ) :
    yeq h fuel (.dict p) (.dict q) = false := by
  have hpq : p ≠ q := by rintro rfl; exact hkp hkq
  cases fuel with
  | zero => simp [yeq, hpq]
  | succ fuel =>
    by_contra hc
    rw [Bool.not_eq_false] at hc
    unfold yeq at hc
    simp only [hpq, decide_false, Bool.false_or, Bool.and_eq_true, decide_eq_true_eq, List.all_eq_true] at hc
    obtain ⟨hlen, hall⟩ := hc
    have hsub : (h p).map Prod.fst ⊆ (h q).map Prod.fst := by
      intro x hx
      obtain ⟨kv, hkv, rfl⟩ := List.mem_map.1 hx
      have := hall kv hkv
      by_contra hn
      rw [← dget_none] at hn
      rw [hn] at this
      cases this
    have hperm := (List.subperm_of_subset hp hsub).perm_of_length_le (by simp [hlen])
    exact hkp (hperm.mem_iff.2 hkq)

section Loop
variable {cls : Classes} {entries : List (String × ℕ)} {h : YHeap} {kw : ℕ → Option ℕ} {kind : ℕ → String}

/-- The heap after the entries `pre`: only their keyword dicts have changed, and each carries its
name. -/
structure HeapInv (h : YHeap) (kw : ℕ → Option ℕ) (pre : List (String × ℕ)) (H : YHeap) : Prop where
  same : ∀ p, (∀ e ∈ pre, kw e.2 ≠ some p) → H p = h p
  named : ∀ e ∈ pre, ∀ a, kw e.2 = some a → dget (H a) "name" = some (.atom e.1)

theorem WellFormed.entry_inj (w : WellFormed cls entries h kw kind) {e e' : String × ℕ} (he : e ∈ entries)
    (he' : e' ∈ entries) (hh : e.2 = e'.2) : e = e' := List.inj_on_of_nodup_map w.addrs he he' hh

theorem WellFormed.name_inj (w : WellFormed cls entries h kw kind) {e e' : String × ℕ} (he : e ∈ entries)
    (he' : e' ∈ entries) (hh : e.1 = e'.1) : e = e' := List.inj_on_of_nodup_map w.names he he' hh

/-- While entry `e0` is being processed, an earlier entry equals an argument only if it is the same
dict. -/
theorem WellFormed.yeq_entry (w : WellFormed cls entries h kw kind) {pre post : List (String × ℕ)}
    {e0 : String × ℕ} (hes : entries = pre ++ e0 :: post) {H H' : YHeap} (inv : HeapInv h kw pre H)
    (hsame : ∀ p, kw e0.2 ≠ some p → H' p = H p)
    (hname : ∀ a, kw e0.2 = some a → dget (H' a) "name" = none)
    {e : String × ℕ} (he : e ∈ pre) (p : ℕ)
    (hp : (∃ e' ∈ entries, e'.2 = p) ∨ (dget (h p) "kind" = none ∧ ∀ e' ∈ entries, kw e'.2 ≠ some p)) (fuel : ℕ) :
    yeq H' fuel (.dict e.2) (.dict p) = decide (e.2 = p) := by
  have mem_pre : ∀ x ∈ pre, x ∈ entries := fun x hx => by rw [hes]; exact List.mem_append_left _ hx
  have mem_e0 : e0 ∈ entries := by rw [hes]; simp
  have hE : ∀ x ∈ entries, H' x.2 = h x.2 := by
    intro x hx
    rw [hsame _ (fun hc => w.sep e0 mem_e0 x hx hc), inv.same _ (fun y hy hc => w.sep y (mem_pre y hy) x hx hc)]
  have he' := mem_pre e he
  by_cases hep : e.2 = p
  · subst hep
    rw [yeq_dict_self]; simp
  rw [decide_eq_false hep]
  rcases hp with ⟨f, hf, rfl⟩ | ⟨hk, hkw⟩
  · have hne : e ≠ f := fun hc => hep (by rw [hc])
    cases hke : kw e.2 with
    | some a =>
      have hinit : ("init_kwargs", YVal.dict a) ∈ H' e.2 := by
        rw [hE e he']
        refine dget_mem ?_
        rw [w.kw_eq e he', hke]; rfl
      refine yeq_dict_false hep hinit ?_ fuel
      intro fuel' v hv
      rw [hE f hf, w.kw_eq f hf] at hv
      cases hkf : kw f.2 with
      | none => rw [hkf] at hv; cases hv
      | some b =>
        rw [hkf] at hv
        simp only [Option.map_some, Option.some.injEq] at hv
        subst hv
        have hab : a ≠ b := by
          rintro rfl
          exact hne (w.own e he' f hf a hke hkf)
        have hnm : ("name", YVal.atom e.1) ∈ H' a := by
          have h0 : kw e0.2 ≠ some a := by
            intro hc
            have := w.own e he' e0 mem_e0 a hke hc
            subst this
            have hnd := w.names
            rw [hes, List.map_append, List.nodup_append] at hnd
            exact hnd.2.2 _ (List.mem_map_of_mem he) _ (by simp) rfl
          rw [hsame a h0]
          exact dget_mem (inv.named e he a hke)
        refine yeq_dict_false hab hnm ?_ fuel'
        intro fuel'' v hv
        -- the name in the other keyword dict
        by_cases hfpre : f ∈ pre
        · have h0 : kw e0.2 ≠ some b := by
            intro hc
            have := w.own f hf e0 mem_e0 b hkf hc
            subst this
            have hnd := w.names
            rw [hes, List.map_append, List.nodup_append] at hnd
            exact hnd.2.2 _ (List.mem_map_of_mem hfpre) _ (by simp) rfl
          rw [hsame b h0, inv.named f hfpre b hkf] at hv
          simp only [Option.some.injEq] at hv
          subst hv
          have : e.1 ≠ f.1 := fun hc => hne (w.name_inj he' hf hc)
          cases fuel'' <;> simp [yeq, this]
        · exfalso
          by_cases hf0 : f = e0
          · subst hf0
            rw [hname b hkf] at hv; cases hv
          · have h0 : kw e0.2 ≠ some b := fun hc => hf0 (w.own f hf e0 mem_e0 b hkf hc)
            rw [hsame b h0, inv.same b (fun y hy hc => hfpre (by rw [w.own f hf y (mem_pre y hy) b hkf hc]; exact hy))] at hv
            have := (w.args f hf b hkf).2
            rw [dget_none.2 this] at hv
            cases hv
    | none =>
      cases hkf : kw f.2 with
      | some b =>
        refine yeq_dict_keys (k := "init_kwargs") (by rw [hE e he']; exact w.keys e he') ?_ ?_ fuel
        · rw [hE e he', ← dget_none, w.kw_eq e he', hke]; rfl
        · rw [hE f hf]
          by_contra hn
          rw [← dget_none, w.kw_eq f hf, hkf] at hn
          cases hn
      | none =>
        obtain ⟨key, s, h1, h2⟩ := w.plain e he' f hf hne hke hkf
        refine yeq_dict_false hep (by rw [hE e he']; exact h1) ?_ fuel
        intro fuel' v hv
        rw [hE f hf] at hv
        rw [hv] at h2
        cases v with
        | atom t =>
          have : s ≠ t := fun hc => h2 (by rw [hc])
          cases fuel' <;> simp [yeq, this]
        | dict _ => cases fuel' <;> simp [yeq]
        | list _ => cases fuel' <;> simp [yeq]
        | obj _ => cases fuel' <;> simp [yeq]
  · have hH : H' p = h p := by
      rw [hsame p (hkw e0 mem_e0), inv.same p (fun y hy => hkw y (mem_pre y hy))]
    refine yeq_dict_false hep (k := "kind") (v := .atom (kind e.2)) ?_ ?_ fuel
    · rw [hE e he']
      exact dget_mem (w.kind_eq e he').1
    · intro _ v hv
      rw [hH, hk] at hv
      cases hv

theorem findIdx?_congr {α : Type*} {f g : α → Bool} : ∀ {l : List α}, (∀ x ∈ l, f x = g x) → l.findIdx? f = l.findIdx? g
  | [], _ => rfl
  | x :: l, hfg => by
    rw [List.findIdx?_cons, List.findIdx?_cons, hfg x List.mem_cons_self,
      findIdx?_congr fun y hy => hfg y (List.mem_cons_of_mem _ hy)]

/-- One entry. -/
theorem WellFormed.step (w : WellFormed cls entries h kw kind) {pre post : List (String × ℕ)}
    {e : String × ℕ} (hes : entries = pre ++ e :: post) {H : YHeap} (inv : HeapInv h kw pre H) (fuel : ℕ) :
    ∃ H', buildEntry cls entries fuel e.1 e.2 H = .ok (H', expectedCall h kw kind pre e) ∧
      HeapInv h kw (pre ++ [e]) H' := by
  have mem_pre : ∀ x ∈ pre, x ∈ entries := fun x hx => by rw [hes]; exact List.mem_append_left _ hx
  have he : e ∈ entries := by rw [hes]; simp
  have hE : H e.2 = h e.2 := inv.same _ (fun y hy hc => w.sep y (mem_pre y hy) e he hc)
  have hnot : e ∉ pre := by
    intro hc
    have hnd := w.names
    rw [hes, List.map_append, List.nodup_append] at hnd
    exact hnd.2.2 _ (List.mem_map_of_mem hc) _ (by simp) rfl
  have hnotn : e.1 ∉ pre.map Prod.fst := by
    intro hc
    have hnd := w.names
    rw [hes, List.map_append, List.nodup_append] at hnd
    exact hnd.2.2 _ hc _ (by simp) rfl
  unfold buildEntry expectedCall
  rw [hE, w.kw_eq e he]
  cases hk : kw e.2 with
  | none =>
    simp only [Option.map_none]
    unfold construct
    rw [hE, (w.kind_eq e he).1]
    simp only [(w.kind_eq e he).2, if_true, List.nil_append]
    refine ⟨H, rfl, ?_, ?_⟩
    · intro p hp
      exact inv.same p fun x hx => hp x (List.mem_append_left _ hx)
    · intro x hx a ha
      rcases List.mem_append.1 hx with hx | hx
      · exact inv.named x hx a ha
      · rw [List.mem_singleton] at hx
        subst hx
        rw [hk] at ha; cases ha
  | some a =>
    simp only [Option.map_some]
    have hHa : H a = h a := inv.same a fun y hy hc => hnot (by rw [← w.own y (mem_pre y hy) e he a hc hk]; exact hy)
    obtain ⟨hnd, hnm⟩ := w.args e he a hk
    have hae : e.2 ≠ a := fun hc => w.sep e he e he (by rw [hc]; rw [hc] at hk; exact hk)
    have hres := resolveKeys_eq (entries := entries) (pre := pre) (fuel := fuel) (a := a) (name := e.1)
      (d := h a) hnd hnm H ?_ ((h a).map Prod.fst) H (fun k hk' => hk') hnd (fun p _ => rfl) ?_
    · rw [hHa]
      obtain ⟨hr1, hr2⟩ := hres
      generalize resolveKeys entries fuel e.1 a ((h a).map Prod.fst) H = R at hr1 hr2
      unfold construct
      rw [hr1 e.2 hae, hE, (w.kind_eq e he).1]
      simp only [(w.kind_eq e he).2, if_true]
      have hnew : dset (R a) "name" (.atom e.1)
          = (h a).map (fun kv => (kv.1, resolved pre kv.2)) ++ [("name", .atom e.1)] := by
        rw [dset_new, hr2]
        rw [hr2, dget_none, List.map_map]
        exact hnm
      refine ⟨_, by rw [hnew], ?_, ?_⟩
      · intro p hp
        have hpa : p ≠ a := by
          rintro rfl
          exact hp e (by simp) hk
        simp only [hpa, if_false]
        rw [hr1 p hpa]
        exact inv.same p fun x hx => hp x (List.mem_append_left _ hx)
      · intro x hx b hb
        rcases List.mem_append.1 hx with hx | hx
        · have hba : b ≠ a := by
            rintro rfl
            exact hnot (by rw [← w.own x (mem_pre x hx) e he b hb hk]; exact hx)
          simp only [hba, if_false]
          rw [hr1 b hba]
          exact inv.named x hx b hb
        · rw [List.mem_singleton] at hx
          subst hx
          rw [hk, Option.some.injEq] at hb
          subst hb
          simp only [if_true]
          refine dget_of_mem ?_ (by simp)
          rw [List.map_append, List.map_map]
          refine List.nodup_append.2 ⟨hnd, by simp, ?_⟩
          intro x hx y hy hxy
          simp only [List.map_cons, List.map_nil, List.mem_singleton] at hy
          subst hxy
          rw [hy] at hx
          exact hnm hx
    · intro H' hs hn kv hkv
      obtain ⟨k, v⟩ := kv
      cases v with
      | dict p =>
        simp only
        rw [hes, matchEntry_pre H' fuel e.1 p e.2 post pre 0 hnotn]
        rw [findIdx?_congr fun x hx => w.yeq_entry hes inv (fun q hq => hs q (fun hc => hq (by rw [hc]; exact hk)))
          (fun b hb => by rw [hk, Option.some.injEq] at hb; subst hb; exact hn) hx p (w.refs e he a hk k p hkv) fuel]
        simp
      | atom _ => exact matchEntry_scalar H' fuel e.1 (by intro p hc; cases hc) entries 0
      | list _ => exact matchEntry_scalar H' fuel e.1 (by intro p hc; cases hc) entries 0
      | obj _ => exact matchEntry_scalar H' fuel e.1 (by intro p hc; cases hc) entries 0
    · rw [hHa]
      conv_lhs => rw [← List.map_id (h a)]
      refine List.map_congr_left fun kv hkv => ?_
      rw [if_pos (List.mem_map_of_mem hkv)]; rfl

/-- All entries. -/
theorem WellFormed.loop (w : WellFormed cls entries h kw kind) (fuel : ℕ) :
    ∀ (post pre : List (String × ℕ)) (H : YHeap) (ms : List Built), entries = pre ++ post → HeapInv h kw pre H →
      ms.length = pre.length →
      (∀ i e, pre[i]? = some e → ms[i]? = some (expectedCall h kw kind (entries.take i) e)) →
      ∃ out, buildLoop cls entries fuel post H ms = .ok out ∧ out.length = entries.length ∧
        ∀ i e, entries[i]? = some e → out[i]? = some (expectedCall h kw kind (entries.take i) e)
  | [], pre, H, ms, hes, _, hl, hall => by
    rw [List.append_nil] at hes
    subst hes
    exact ⟨ms, rfl, hl, hall⟩
  | e :: post, pre, H, ms, hes, inv, hl, hall => by
    obtain ⟨H', h1, h2⟩ := w.step hes inv fuel
    rw [buildLoop, h1]
    refine WellFormed.loop w fuel post (pre ++ [e]) H' _ (by rw [hes]; simp) h2 (by simp [hl]) ?_
    intro i x hx
    rcases Nat.lt_trichotomy i pre.length with hi | hi | hi
    · rw [List.getElem?_append_left hi] at hx
      rw [List.getElem?_append_left (by rw [hl]; exact hi)]
      exact hall i x hx
    · subst hi
      rw [List.getElem?_append_right (le_refl _)] at hx
      rw [List.getElem?_append_right (by rw [hl])]
      simp only [Nat.sub_self, List.getElem?_cons_zero, Option.some.injEq] at hx
      subst hx
      rw [hl, hes]
      simp
    · rw [List.getElem?_eq_none (by simp; omega)] at hx
      cases hx

end Loop

end Caustics
