import Verif.Model.Chunk
import Verif.Spec.Batch
import Mathlib.Tactic.Linarith
import Mathlib.Tactic.Ring

namespace Caustics

theorem slices_length {α : Type} (off : Nat → Nat) (k : Nat) (xs : List α) :
    (slices off k xs).length = k := by simp [slices]

theorem slices_flatten_take {α : Type} (off : Nat → Nat) (k : Nat) (xs : List α)
    (h0 : off 0 = 0) (hm : ∀ i, i < k → off i ≤ off (i + 1)) :
    (slices off k xs).flatten = xs.take (off k) := by
  induction k with
  | zero => simp [slices, h0]
  | succ k ih =>
    have ih' := ih (fun i hi => hm i (by omega))
    unfold slices at ih' ⊢
    rw [List.range_succ, List.map_append, List.flatten_append, ih']
    simp only [List.map_cons, List.map_nil, List.flatten_cons, List.flatten_nil, List.append_nil]
    have := List.take_add (l := xs) (i := off k) (j := off (k + 1) - off k)
    rw [← this]
    congr 1
    have := hm k (by omega)
    omega

theorem slices_flatten {α : Type} (off : Nat → Nat) (k : Nat) (xs : List α)
    (h0 : off 0 = 0) (hm : ∀ i, i < k → off i ≤ off (i + 1)) (hk : xs.length ≤ off k) :
    (slices off k xs).flatten = xs := by
  rw [slices_flatten_take off k xs h0 hm, List.take_of_length_le hk]

theorem ceilDiv_mul_ge (a b : Nat) (hb : 0 < b) : a ≤ ceilDiv a b * b := by
  unfold ceilDiv
  have h := Nat.div_add_mod (a + b - 1) b
  have h2 := Nat.mod_lt (a + b - 1) hb
  rw [Nat.mul_comm] at h
  omega

theorem ceilDiv_le_iff (a b n : Nat) (hb : 0 < b) : ceilDiv a b ≤ n ↔ a ≤ n * b := by
  constructor
  · intro h
    exact (ceilDiv_mul_ge a b hb).trans (Nat.mul_le_mul_right b h)
  · intro h
    unfold ceilDiv
    rw [← Nat.lt_succ_iff, Nat.div_lt_iff_lt_mul hb]
    have : (n + 1) * b = n * b + b := by ring
    rw [Nat.succ_eq_add_one, this]
    omega

theorem ceilDiv_pos (a b : Nat) (ha : 0 < a) (hb : 0 < b) : 0 < ceilDiv a b := by
  by_contra h
  have : ceilDiv a b ≤ 0 := by omega
  rw [ceilDiv_le_iff a b 0 hb] at this
  omega

/-- The piece size chosen by `torch.chunk` for `ceil(B/c)` pieces is at most `c`. -/
theorem torch_piece_le (B c : Nat) (hB : 0 < B) (hc : 0 < c) :
    ceilDiv B (ceilDiv B c) ≤ c := by
  rw [ceilDiv_le_iff _ _ _ (ceilDiv_pos B c hB hc), Nat.mul_comm]
  exact ceilDiv_mul_ge B c hc

/-- `torch.chunk` returns exactly the requested `ceil(B/c)` pieces. -/
theorem torch_count (B c : Nat) (hB : 0 < B) (hc : 0 < c) :
    ceilDiv B (ceilDiv B (ceilDiv B c)) = ceilDiv B c := by
  have hn := ceilDiv_pos B c hB hc
  have hs := ceilDiv_pos B (ceilDiv B c) hB hn
  apply le_antisymm
  · rw [ceilDiv_le_iff _ _ _ hs, Nat.mul_comm]
    exact ceilDiv_mul_ge B _ hn
  · rw [ceilDiv_le_iff B c _ hc]
    exact (ceilDiv_mul_ge B _ hs).trans
      (Nat.mul_le_mul_left _ (torch_piece_le B c hB hc))

/-- Cut positions used by either backend for a batch of `B` and `n` pieces, cut off at `B`. -/
def cutAt (b : Backend) (B n i : Nat) : Nat :=
  match b with
  | .torch => min (i * ceilDiv B n) B
  | .jax => min (i * (B / n) + min i (B % n)) B

theorem slices_min {α : Type} (off : Nat → Nat) (k : Nat) (xs : List α)
    (hm : ∀ i, i < k → off i ≤ off (i + 1)) :
    slices off k xs = slices (fun i => min (off i) xs.length) k xs := by
  unfold slices
  apply List.map_congr_left
  intro i hi
  have hik := hm i (List.mem_range.mp hi)
  by_cases h1 : off i ≤ xs.length
  · by_cases h2 : off (i + 1) ≤ xs.length
    · simp [h1, h2]
    · simp only [min_eq_left h1, min_eq_right (not_le.mp h2).le]
      rw [List.take_of_length_le (by simp; omega), List.take_of_length_le (by simp)]
  · have h2 : xs.length ≤ off (i + 1) := by omega
    simp only [min_eq_right (not_le.mp h1).le, min_eq_right h2]
    rw [List.drop_of_length_le (not_le.mp h1).le]
    simp

theorem chunk_eq_slices {α : Type} (b : Backend) (B c : Nat) (hB : 0 < B) (hc : 0 < c)
    (xs : List α) (hx : xs.length = B) :
    b.chunk (ceilDiv B c) xs = slices (cutAt b B (ceilDiv B c)) (ceilDiv B c) xs := by
  subst hx
  cases b with
  | torch =>
    simp only [Backend.chunk, chunkTorch, torch_count xs.length c hB hc]
    rw [slices_min]
    · rfl
    · intro i _; exact Nat.mul_le_mul_right _ (by omega)
  | jax =>
    simp only [Backend.chunk, chunkJax]
    rw [slices_min]
    · rfl
    · intro i _
      have : (i + 1) * (xs.length / ceilDiv xs.length c)
        = i * (xs.length / ceilDiv xs.length c) + xs.length / ceilDiv xs.length c := by ring
      rw [this]
      have h2 : min i (xs.length % ceilDiv xs.length c)
          ≤ min (i + 1) (xs.length % ceilDiv xs.length c) := by
        apply min_le_min_right; omega
      generalize xs.length / ceilDiv xs.length c = d at *
      omega

theorem cutAt_zero (b : Backend) (B n : Nat) : cutAt b B n 0 = 0 := by
  cases b <;> simp [cutAt]

theorem cutAt_mono (b : Backend) (B n i : Nat) : cutAt b B n i ≤ cutAt b B n (i + 1) := by
  cases b with
  | torch =>
    simp only [cutAt]
    have : (i + 1) * ceilDiv B n = i * ceilDiv B n + ceilDiv B n := by ring
    omega
  | jax =>
    simp only [cutAt]
    have : (i + 1) * (B / n) = i * (B / n) + B / n := by ring
    rw [this]
    have h2 : min i (B % n) ≤ min (i + 1) (B % n) := by apply min_le_min_right; omega
    apply min_le_min_right
    generalize B / n = d at *
    omega

theorem cutAt_last (b : Backend) (B n : Nat) (hn : 0 < n) : cutAt b B n n = B := by
  cases b with
  | torch =>
    simp only [cutAt]
    have := ceilDiv_mul_ge B n hn
    have h2 : B ≤ n * ceilDiv B n := by
      have hle := (ceilDiv_le_iff B n (ceilDiv B n) hn).mp le_rfl
      rw [Nat.mul_comm]; exact hle
    omega
  | jax =>
    simp only [cutAt]
    have h := Nat.div_add_mod B n
    have h2 := Nat.mod_lt B hn
    omega

theorem cutAt_step_le (b : Backend) (B c i : Nat) (hB : 0 < B) (hc : 0 < c) :
    cutAt b B (ceilDiv B c) (i + 1) - cutAt b B (ceilDiv B c) i ≤ c := by
  cases b with
  | torch =>
    simp only [cutAt]
    have h1 := torch_piece_le B c hB hc
    have : (i + 1) * ceilDiv B (ceilDiv B c)
      = i * ceilDiv B (ceilDiv B c) + ceilDiv B (ceilDiv B c) := by ring
    omega
  | jax =>
    simp only [cutAt]
    set n := ceilDiv B c with hn
    have hnpos : 0 < n := ceilDiv_pos B c hB hc
    have h := Nat.div_add_mod B n
    have h2 := Nat.mod_lt B hnpos
    have hBc : B ≤ n * c := ceilDiv_mul_ge B c hc
    have hd : B / n ≤ c := by
      have : B / n ≤ n * c / n := Nat.div_le_div_right hBc
      rwa [Nat.mul_div_cancel_left c hnpos] at this
    have : (i + 1) * (B / n) = i * (B / n) + B / n := by ring
    by_cases he : B / n = c
    · have : B % n = 0 := by
        rw [he] at h
        omega
      omega
    · omega

theorem mapM_some_of_forall {α β : Type} (f : α → Option β) (g : α → β) (l : List α)
    (h : ∀ a ∈ l, f a = some (g a)) : l.mapM f = some (l.map g) := by
  induction l with
  | nil => rfl
  | cons a l ih =>
    rw [List.mapM_cons, h a (by simp), ih (fun a ha => h a (by simp [ha]))]
    rfl

theorem sum_blocks {R : Type} [AddMonoid R] (f : Nat → R) (cut : Nat → Nat) (n : Nat)
    (h0 : cut 0 = 0) (hm : ∀ i, cut i ≤ cut (i + 1)) :
    ((List.range n).map fun j =>
        ((List.range (cut (j + 1) - cut j)).map fun i => f (cut j + i)).sum).sum
      = ((List.range (cut n)).map f).sum := by
  induction n with
  | zero => simp [h0]
  | succ n ih =>
    rw [List.range_succ, List.map_append, List.sum_append, ih]
    have hcut : cut (n + 1) = cut n + (cut (n + 1) - cut n) := by have := hm n; omega
    conv_rhs => rw [hcut, List.range_add, List.map_append, List.sum_append, List.map_map]
    simp [Function.comp_def]

theorem findSome_size {V : Type} {B : Nat} {args : List (Arg V)} (h : BatchOf B args) :
    args.findSome? Arg.size? = some B := by
  obtain ⟨⟨vs, hvs⟩, hall⟩ := h
  cases hf : args.findSome? Arg.size? with
  | none =>
    rw [List.findSome?_eq_none_iff] at hf
    have := hf _ hvs
    simp [Arg.size?] at this
  | some B' =>
    obtain ⟨a, ha, hs⟩ := List.exists_of_findSome?_eq_some hf
    cases a with
    | shared v => simp [Arg.size?] at hs
    | batched ws =>
      simp [Arg.size?] at hs
      rw [← hs, hall ws ha]

/-- The row of argument values for batch element `j < B`. -/
theorem row_isSome {V : Type} {B : Nat} {args : List (Arg V)} (h : BatchOf B args) {j : Nat}
    (hj : j < B) : ∃ r, args.mapM (Arg.at? j) = some r := by
  have : ∀ l : List (Arg V), (∀ a ∈ l, a ∈ args) → ∃ r, l.mapM (Arg.at? j) = some r := by
    intro l
    induction l with
    | nil => intro _; exact ⟨[], rfl⟩
    | cons a l ih =>
      intro hl
      obtain ⟨r, hr⟩ := ih (fun a ha => hl a (by simp [ha]))
      have : ∃ v, Arg.at? j a = some v := by
        cases a with
        | shared v => exact ⟨v, rfl⟩
        | batched vs =>
          have := h.2 vs (hl _ (by simp))
          exact ⟨vs[j], by simp [Arg.at?, this, hj]⟩
      obtain ⟨v, hv⟩ := this
      exact ⟨v :: r, by rw [List.mapM_cons, hv, hr]; rfl⟩
  exact this args (fun _ h => h)

theorem vmapFunc_eq {V R : Type} (func : List V → R) {B : Nat} {args : List (Arg V)}
    (h : BatchOf B args) :
    vmapFunc func args = (List.range B).mapM fun j => (args.mapM (Arg.at? j)).map func := by
  unfold vmapFunc
  rw [findSome_size h]
  have : args.all (fun a => decide (a.size? = none ∨ a.size? = some B)) = true := by
    rw [List.all_eq_true]
    intro a ha
    cases a with
    | shared v => simp [Arg.size?]
    | batched vs => simp [Arg.size?, h.2 vs ha]
  simp only [this, if_true]

/-- Slice of an argument. -/
def Arg.slice {V : Type} (lo hi : Nat) : Arg V → Arg V
  | .shared v => .shared v
  | .batched vs => .batched ((vs.drop lo).take (hi - lo))

theorem at?_slice {V : Type} (lo hi i : Nat) (hi' : i < hi - lo) (a : Arg V) :
    Arg.at? i (a.slice lo hi) = Arg.at? (lo + i) a := by
  cases a with
  | shared v => rfl
  | batched vs => simp [Arg.slice, Arg.at?, hi']

theorem BatchOf.slice {V : Type} {B : Nat} {args : List (Arg V)} (h : BatchOf B args)
    (lo hi : Nat) (hhi : hi ≤ B) : BatchOf (hi - lo) (args.map (Arg.slice lo hi)) := by
  obtain ⟨⟨vs, hvs⟩, hall⟩ := h
  refine ⟨⟨_, List.mem_map.mpr ⟨_, hvs, rfl⟩⟩, ?_⟩
  intro ws hws
  obtain ⟨a, ha, hw⟩ := List.mem_map.mp hws
  cases a with
  | shared v => simp [Arg.slice] at hw
  | batched us =>
    simp only [Arg.slice, Arg.batched.injEq] at hw
    rw [← hw, List.length_take, List.length_drop, hall us ha]
    omega

theorem chunkInput_eq {V : Type} (b : Backend) {B : Nat} {args : List (Arg V)}
    (h : BatchOf B args) (hB : 0 < B) (c : Nat) (hc : 0 < c) :
    chunkInput b args (some c) = some ((List.range (ceilDiv B c)).map fun j =>
      args.map (Arg.slice (cutAt b B (ceilDiv B c) j) (cutAt b B (ceilDiv B c) (j + 1)))) := by
  have hn := ceilDiv_pos B c hB hc
  have key : ∀ l : List (Arg V), (∀ a ∈ l, a ∈ args) →
      (∀ col ∈ (l.map fun a => match a with
        | .shared v => List.replicate (ceilDiv B c) (Arg.shared v)
        | .batched vs => (b.chunk (ceilDiv B c) vs).map Arg.batched), col.length ≤ ceilDiv B c) ∧
      ∀ j, j < ceilDiv B c →
        (l.map fun a => match a with
        | .shared v => List.replicate (ceilDiv B c) (Arg.shared v)
        | .batched vs => (b.chunk (ceilDiv B c) vs).map Arg.batched).filterMap (fun col => col[j]?)
        = l.map (Arg.slice (cutAt b B (ceilDiv B c) j) (cutAt b B (ceilDiv B c) (j + 1))) := by
    intro l hl
    constructor
    · intro col hcol
      obtain ⟨a, ha, rfl⟩ := List.mem_map.mp hcol
      cases a with
      | shared v => simp
      | batched vs =>
        simp only [List.length_map]
        rw [chunk_eq_slices b B c hB hc vs (h.2 vs (hl _ ha)), slices_length]
    · intro j hj
      induction l with
      | nil => rfl
      | cons a l ih =>
        have ih' := ih (fun a ha => hl a (by simp [ha]))
        rw [List.map_cons, List.filterMap_cons, ih', List.map_cons]
        cases a with
        | shared v => simp [hj, Arg.slice]
        | batched vs =>
          have e := chunk_eq_slices b B c hB hc vs (h.2 vs (hl _ (by simp)))
          simp [e, slices, hj, Arg.slice]
  obtain ⟨k1, k2⟩ := key args (fun _ h => h)
  unfold chunkInput
  simp only [findSome_size h, Option.map_some]
  rw [if_neg (by omega), if_pos]
  · congr 1
    apply List.map_congr_left
    intro j hj
    exact k2 j (List.mem_range.mp hj)
  · rw [List.all_eq_true]
    intro col hcol
    simpa using k1 col hcol

theorem row_eq {V : Type} {B : Nat} {args : List (Arg V)} (h : BatchOf B args) {j : Nat}
    (hj : j < B) : args.mapM (Arg.at? j) = some (rowOf args j) := by
  have : ∀ l : List (Arg V), (∀ a ∈ l, a ∈ args) → l.mapM (Arg.at? j) = some (rowOf l j) := by
    intro l
    induction l with
    | nil => intro _; rfl
    | cons a l ih =>
      intro hl
      have hr := ih (fun a ha => hl a (by simp [ha]))
      rw [List.mapM_cons, hr]
      cases a with
      | shared v => simp [Arg.at?, rowOf]
      | batched vs =>
        have := h.2 vs (hl _ (by simp))
        simp [Arg.at?, rowOf, this, hj]
  exact this args (fun _ h => h)

theorem vmapFunc_row {V R : Type} (func : List V → R) {B : Nat} {args : List (Arg V)}
    (h : BatchOf B args) :
    vmapFunc func args = some ((List.range B).map fun j => func (rowOf args j)) := by
  rw [vmapFunc_eq func h]
  apply mapM_some_of_forall
  intro j hj
  rw [row_eq h (List.mem_range.mp hj)]
  rfl

theorem rowOf_slice {V : Type} (args : List (Arg V)) (lo hi i : Nat) (hi' : i < hi - lo) :
    rowOf (args.map (Arg.slice lo hi)) i = rowOf args (lo + i) := by
  unfold rowOf
  rw [List.filterMap_map]
  congr 1
  funext a
  cases a with
  | shared v => rfl
  | batched vs => simp [Arg.slice, hi']

theorem cutAt_le (b : Backend) (B n i : Nat) : cutAt b B n i ≤ B := by
  cases b <;> simp [cutAt]

theorem vmapReduce_some {V R : Type} [AddMonoid R] (b : Backend) (func : List V → R) {B : Nat}
    {args : List (Arg V)} (h : BatchOf B args) (hB : 0 < B) (c : Nat) (hc : 0 < c) :
    vmapReduce b func (some c) args
      = some ((List.range B).map fun j => func (rowOf args j)).sum := by
  unfold vmapReduce
  rw [chunkInput_eq b h hB c hc]
  simp only
  rw [List.mapM_map]
  rw [mapM_some_of_forall _ (fun j => ((List.range (cutAt b B (ceilDiv B c) (j + 1)
      - cutAt b B (ceilDiv B c) j)).map fun i =>
        func (rowOf args (cutAt b B (ceilDiv B c) j + i))).sum)]
  · simp only
    rw [sum_blocks (fun j => func (rowOf args j)) (cutAt b B (ceilDiv B c)) _
      (cutAt_zero b B _) (cutAt_mono b B _), cutAt_last b B _ (ceilDiv_pos B c hB hc)]
  · intro j _
    have hs := h.slice (cutAt b B (ceilDiv B c) j) (cutAt b B (ceilDiv B c) (j + 1))
      (cutAt_le b B _ _)
    rw [Function.comp_apply, if_pos (by simp), vmapFunc_row func hs]
    simp only [Option.map_some, Option.some.injEq]
    congr 1
    apply List.map_congr_left
    intro i hi
    rw [rowOf_slice _ _ _ _ (List.mem_range.mp hi)]

theorem chunkInput_none {V : Type} (b : Backend) {B : Nat} {args : List (Arg V)}
    (h : BatchOf B args) (hB : 0 < B) :
    chunkInput b args none = chunkInput b args (some B) := by
  have : ceilDiv B B = 1 := by
    unfold ceilDiv
    rw [show B + B - 1 = (B - 1) + B by omega, Nat.add_div_right _ hB,
      Nat.div_eq_of_lt (by omega)]
  unfold chunkInput
  simp only [findSome_size h, Option.map_some, this]

theorem chunk_flatten {α : Type} (b : Backend) (n : Nat) (hn : 0 < n) (xs : List α) :
    (b.chunk n xs).flatten = xs := by
  cases b with
  | torch =>
    simp only [Backend.chunk, chunkTorch]
    refine slices_flatten _ _ _ (by simp) (fun i _ => Nat.mul_le_mul_right _ (by omega)) ?_
    rcases Nat.eq_zero_or_pos xs.length with h | h
    · omega
    · exact ceilDiv_mul_ge _ _ (ceilDiv_pos _ _ h hn)
  | jax =>
    simp only [Backend.chunk, chunkJax]
    refine slices_flatten _ _ _ (by simp) (fun i _ => ?_) ?_
    · have : (i + 1) * (xs.length / n) = i * (xs.length / n) + xs.length / n := by ring
      rw [this]
      have h2 : min i (xs.length % n) ≤ min (i + 1) (xs.length % n) := by
        apply min_le_min_right; omega
      generalize xs.length / n = d at *
      omega
    · have h := Nat.div_add_mod xs.length n
      have h2 := Nat.mod_lt xs.length hn
      omega

theorem filterMap_full {α β : Type} (f : α → Option β) (l : List α)
    (h : (l.filterMap f).length = l.length) :
    (∀ a ∈ l, (f a).isSome) ∧ ∀ k : Nat, (l.filterMap f)[k]? = l[k]?.bind f := by
  induction l with
  | nil => simp
  | cons a l ih =>
    cases hf : f a with
    | none =>
      rw [List.filterMap_cons_none hf] at h
      have := List.length_filterMap_le f l
      simp only [List.length_cons] at h
      omega
    | some c =>
      rw [List.filterMap_cons_some hf] at h ⊢
      obtain ⟨h1, h2⟩ := ih (by simpa using h)
      refine ⟨by simpa [hf] using h1, fun k => ?_⟩
      cases k with
      | zero => simp [hf]
      | succ k => simpa using h2 k

theorem vmapFunc_sizes {V R : Type} (func : List V → R) {args : List (Arg V)} {r : List R}
    (h : vmapFunc func args = some r) {vs vs' : List V} (h1 : Arg.batched vs ∈ args)
    (h2 : Arg.batched vs' ∈ args) : vs.length = vs'.length := by
  unfold vmapFunc at h
  split at h
  · cases h
  · rename_i B _
    split at h
    · rename_i hall
      simp only [List.all_eq_true, decide_eq_true_eq] at hall
      have a := hall _ h1
      have b := hall _ h2
      simp only [Arg.size?, reduceCtorEq, false_or, Option.some.injEq] at a b
      omega
    · cases h

theorem mapM_some_mem {α β : Type} (f : α → Option β) (l : List α) {r : List β}
    (h : l.mapM f = some r) : ∀ a ∈ l, (f a).isSome := by
  induction l generalizing r with
  | nil => simp
  | cons a l ih =>
    simp only [List.mapM_cons, bind, Option.bind_eq_some_iff] at h
    obtain ⟨c, hc, d, hd, _⟩ := h
    simp only [List.mem_cons, forall_eq_or_imp, hc, Option.isSome_some, true_and]
    exact ih hd

theorem vmapReduce_sizes {V R : Type} [AddMonoid R] (b : Backend) (func : List V → R)
    (chunkSize : Option Nat) {args : List (Arg V)} {r : R}
    (h : vmapReduce b func chunkSize args = some r) {vs vs' : List V}
    (h1 : Arg.batched vs ∈ args) (h2 : Arg.batched vs' ∈ args) : vs.length = vs'.length := by
  unfold vmapReduce at h
  cases hch : chunkInput b args chunkSize with
  | none => rw [hch] at h; cases h
  | some chunks =>
    rw [hch] at h
    simp only at h
    generalize hm : List.mapM (m := Option) (fun ch : List (Arg V) =>
      if ch.length = args.length then (vmapFunc func ch).map List.sum else none) chunks = m at h
    cases m with
    | none => cases h
    | some outs =>
      have hall := mapM_some_mem _ _ hm
      unfold chunkInput at hch
      simp only at hch
      split at hch
      · cases hch
      · rename_i n _
        split at hch
        · cases hch
        · rename_i hn
          split at hch
          · simp only [Option.some.injEq] at hch
            set col : Arg V → List (Arg V) := fun a =>
              match a with
              | .shared v => List.replicate n (.shared v)
              | .batched vs => (b.chunk n vs).map .batched with hcol
            have key : ∀ j < n, ∀ ws : List V, Arg.batched ws ∈ args →
                ∃ p, (b.chunk n ws)[j]? = some p ∧
                  Arg.batched p ∈ (args.map col).filterMap (fun c => c[j]?) := by
              intro j hj ws hws
              have hmem : (args.map col).filterMap (fun c => c[j]?) ∈ chunks := by
                rw [← hch]
                exact List.mem_map.mpr ⟨j, List.mem_range.mpr hj, rfl⟩
              have hs := hall _ hmem
              by_cases hl : ((args.map col).filterMap (fun c => c[j]?)).length = args.length
              · have hfull := (filterMap_full (fun c : List (Arg V) => c[j]?) (args.map col)
                  (by rw [hl]; simp)).1 (col (.batched ws)) (List.mem_map.mpr ⟨_, hws, rfl⟩)
                simp only [hcol, List.getElem?_map, Option.isSome_map] at hfull
                obtain ⟨p, hp⟩ := Option.isSome_iff_exists.mp hfull
                refine ⟨p, hp, List.mem_filterMap.mpr ⟨col (.batched ws),
                  List.mem_map.mpr ⟨_, hws, rfl⟩, ?_⟩⟩
                simp [hcol, hp]
              · rw [if_neg hl] at hs
                simp at hs
            have hlen : ∀ ws : List V, Arg.batched ws ∈ args → (b.chunk n ws).length ≤ n := by
              intro ws hws
              rename_i hle
              simp only [List.all_eq_true, decide_eq_true_eq, List.mem_map,
                forall_exists_index, and_imp, forall_apply_eq_imp_iff₂] at hle
              simpa [hcol] using hle _ hws
            have hpiece : (b.chunk n vs).map List.length = (b.chunk n vs').map List.length := by
              apply List.ext_getElem?
              intro j
              by_cases hj : j < n
              · obtain ⟨p, hp, mp⟩ := key j hj vs h1
                obtain ⟨q, hq, mq⟩ := key j hj vs' h2
                have hs := hall _ (by
                  rw [← hch]; exact List.mem_map.mpr ⟨j, List.mem_range.mpr hj, rfl⟩)
                simp only [List.getElem?_map, hp, hq, Option.map_some, Option.some.injEq]
                split at hs
                · rw [Option.isSome_map] at hs
                  obtain ⟨l, hl⟩ := Option.isSome_iff_exists.mp hs
                  exact vmapFunc_sizes func hl mp mq
                · simp at hs
              · rw [List.getElem?_eq_none, List.getElem?_eq_none]
                · have := hlen vs' h2; simp; omega
                · have := hlen vs h1; simp; omega
            have e1 := congrArg List.length (chunk_flatten b n (by omega) vs)
            have e2 := congrArg List.length (chunk_flatten b n (by omega) vs')
            rw [List.length_flatten] at e1 e2
            rw [← e1, ← e2, hpiece]
          · cases hch

end Caustics
