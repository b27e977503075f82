import Verif.Lemmas.Chunk
import Verif.Model.Plane
import Mathlib.Algebra.Order.Ring.Rat
import Mathlib.Algebra.BigOperators.Group.List.Lemmas

/-!
C13 chunked reduction, C14 SinglePlane, C15 BatchedPlane, C45 LightStack.
-/

namespace Caustics

/-! ### C13 -/

/-- C13: with any chunk size the result is the sum, in order, of the function over all batch
elements.  The addition is any associative one, commutative or not, so (taking list
concatenation as the addition) every element is processed exactly once and in order. -/
theorem C13_total {V R : Type} [AddMonoid R] (b : Backend) (func : List V → R) {B : Nat}
    {args : List (Arg V)} (h : BatchOf B args) (hB : 1 ≤ B) (c : Nat) (hc : 1 ≤ c) :
    vmapReduce b func (some c) args
      = some ((List.range B).map fun j => func (rowOf args j)).sum :=
  vmapReduce_some b func h hB c hc

/-- C13: not giving a chunk size gives the same total, on either backend. -/
theorem C13_chunk_size_irrelevant {V R : Type} [AddMonoid R] (b b' : Backend)
    (func : List V → R) {B : Nat} {args : List (Arg V)} (h : BatchOf B args) (hB : 1 ≤ B)
    (c : Nat) (hc : 1 ≤ c) :
    vmapReduce b func (some c) args = vmapReduce b' func none args := by
  rw [C13_total b func h hB c hc]
  have : vmapReduce b' func none args = vmapReduce b' func (some B) args := by
    unfold vmapReduce
    rw [chunkInput_none b' h hB]
  rw [this, C13_total b' func h hB B hB]

/-- C13: the chunks partition every batched argument, in order, into `ceil(B / c)` pieces of
at most `c` elements, and every chunk carries all the arguments, the shared ones unchanged. -/
theorem C13_partition {V : Type} (b : Backend) {B : Nat} {args : List (Arg V)}
    (h : BatchOf B args) (hB : 1 ≤ B) (c : Nat) (hc : 1 ≤ c) :
    ∃ chunks, chunkInput b args (some c) = some chunks ∧
      B ≤ chunks.length * c ∧ (chunks.length - 1) * c < B ∧
      (∀ ch ∈ chunks, ch.length = args.length ∧
        (∀ vs, Arg.batched vs ∈ ch → vs.length ≤ c) ∧
        ∀ (k : Nat) (v : V), args[k]? = some (Arg.shared v) → ch[k]? = some (Arg.shared v)) ∧
      ∀ (k : Nat) (vs : List V), args[k]? = some (Arg.batched vs) →
        (chunks.map (columnOf k)).flatten = vs := by
  refine ⟨_, chunkInput_eq b h hB c hc, ?_, ?_, ?_, ?_⟩
  · simpa using ceilDiv_mul_ge B c hc
  · simp only [List.length_map, List.length_range]
    by_contra hcon
    have h1 := (ceilDiv_le_iff B c (ceilDiv B c - 1) hc).mpr (not_lt.mp hcon)
    have := ceilDiv_pos B c hB hc
    omega
  · intro ch hch
    obtain ⟨j, hj, rfl⟩ := List.mem_map.mp hch
    refine ⟨by simp, ?_, ?_⟩
    · intro vs hvs
      have := (h.slice (cutAt b B (ceilDiv B c) j) (cutAt b B (ceilDiv B c) (j + 1))
        (cutAt_le b B _ _)).2 vs hvs
      rw [this]
      exact cutAt_step_le b B c j hB hc
    · intro k v hk
      simp [hk, Arg.slice]
  · intro k vs hk
    have hlen := h.2 vs (List.mem_of_getElem? hk)
    rw [List.map_map]
    have : (columnOf k ∘ fun j => args.map (Arg.slice (cutAt b B (ceilDiv B c) j)
        (cutAt b B (ceilDiv B c) (j + 1))))
        = fun j => (vs.drop (cutAt b B (ceilDiv B c) j)).take
          (cutAt b B (ceilDiv B c) (j + 1) - cutAt b B (ceilDiv B c) j) := by
      funext j
      simp [columnOf, hk, Arg.slice]
    rw [this]
    exact slices_flatten _ _ vs (cutAt_zero b B _) (fun i _ => cutAt_mono b B _ i)
      (by rw [cutAt_last b B _ (ceilDiv_pos B c hB hc), hlen])

/-- C13, error branch: a chunk size of zero or an empty batch is an error, never a value. -/
theorem C13_errors {V R : Type} [AddMonoid R] (b : Backend) (func : List V → R) {B : Nat}
    {args : List (Arg V)} (h : BatchOf B args) (c : Nat) (hc : B = 0 ∨ c = 0) :
    vmapReduce b func (some c) args = none := by
  have : ceilDiv B c = 0 := by
    rcases hc with rfl | rfl
    · unfold ceilDiv
      rcases Nat.eq_zero_or_pos c with rfl | hc
      · rfl
      · exact Nat.div_eq_of_lt (by omega)
    · simp [ceilDiv]
  simp [vmapReduce, chunkInput, findSome_size h, this]

/-- C13: arguments batched with different numbers of elements are refused, for every chunk size. -/
theorem C13_mismatch {V R : Type} [AddMonoid R] (b : Backend) (func : List V → R)
    (chunkSize : Option Nat) {args : List (Arg V)} {vs vs' : List V}
    (h1 : Arg.batched vs ∈ args) (h2 : Arg.batched vs' ∈ args) (hne : vs.length ≠ vs'.length) :
    vmapReduce b func chunkSize args = none := by
  cases h : vmapReduce b func chunkSize args with
  | none => rfl
  | some r => exact absurd (vmapReduce_sizes b func chunkSize h h1 h2) hne

/-- Three against four elements, one at a time: the first three chunks are fine, the last is not. -/
example : vmapReduce .torch (fun l : List Int => l.sum) (some 1)
    [.batched [1, 2, 3, 4], .batched [6, 7, 8]] = none := by decide

/-- Batch of five with one shared and two batched arguments. -/
example : BatchOf 5 [Arg.shared 7, .batched [1, 2, 3, 4, 5], .batched [6, 7, 8, 9, 10]] := by
  refine ⟨⟨[1, 2, 3, 4, 5], by simp⟩, ?_⟩
  intro vs h
  simp at h
  rcases h with rfl | rfl <;> rfl

/-- torch and jax split 10 elements with chunk size 4 differently, with equal totals. -/
example : chunkTorch 3 [1, 2, 3, 4, 5, 6, 7, 8, 9, 10] = [[1, 2, 3, 4], [5, 6, 7, 8], [9, 10]]
    ∧ chunkJax 3 [1, 2, 3, 4, 5, 6, 7, 8, 9, 10] = [[1, 2, 3, 4], [5, 6, 7], [8, 9, 10]] := by
  decide

example : vmapReduce .torch (fun l : List Int => l.sum) (some 2)
    [Arg.shared 7, .batched [1, 2, 3, 4, 5], .batched [6, 7, 8, 9, 10]] = some 90 := by decide

/-! ### C14 -/

section

variable {K : Type} [AddCommMonoid K]

private theorem foldl_pair (lenses : List (LensFn K)) (x y : K) (acc : K × K) :
    lenses.foldl (fun acc l => (acc.1 + (l.deflection x y).1, acc.2 + (l.deflection x y).2)) acc
      = acc + (lenses.map fun l => l.deflection x y).sum := by
  induction lenses generalizing acc with
  | nil => simp
  | cons l ls ih =>
    rw [List.foldl_cons, ih, List.map_cons, List.sum_cons, ← add_assoc]
    rfl

private theorem foldl_add' {α : Type} (ls : List α) (f : α → K) (acc : K) :
    ls.foldl (fun acc l => acc + f l) acc = acc + (ls.map f).sum := by
  induction ls generalizing acc with
  | nil => simp
  | cons l ls ih => rw [List.foldl_cons, ih, List.map_cons, List.sum_cons, ← add_assoc]

/-- C14: deflection, convergence and potential of a SinglePlane are the sums over members. -/
theorem C14_superposition (lenses : List (LensFn K)) (x y : K) :
    (singlePlane lenses).deflection x y = (lenses.map fun l => l.deflection x y).sum ∧
    (singlePlane lenses).convergence x y = (lenses.map fun l => l.convergence x y).sum ∧
    (singlePlane lenses).potential x y = (lenses.map fun l => l.potential x y).sum := by
  refine ⟨?_, ?_, ?_⟩
  · simp only [singlePlane, singlePlaneDeflection]
    rw [foldl_pair]
    exact zero_add _
  · simp only [singlePlane, singlePlaneConvergence]
    rw [foldl_add', zero_add]
  · simp only [singlePlane, singlePlanePotential]
    rw [foldl_add', zero_add]

omit [AddCommMonoid K] in
theorem LensFn.ext' {l m : LensFn K} (h1 : ∀ x y, l.deflection x y = m.deflection x y)
    (h2 : ∀ x y, l.convergence x y = m.convergence x y)
    (h3 : ∀ x y, l.potential x y = m.potential x y) : l = m := by
  cases l; cases m
  simp only [LensFn.mk.injEq]
  exact ⟨funext₂ h1, funext₂ h2, funext₂ h3⟩

/-- C14: the order of the members does not matter. -/
theorem C14_order (lenses lenses' : List (LensFn K)) (h : lenses.Perm lenses') :
    singlePlane lenses = singlePlane lenses' := by
  refine LensFn.ext' (fun x y => ?_) (fun x y => ?_) (fun x y => ?_)
  · rw [(C14_superposition lenses x y).1, (C14_superposition lenses' x y).1]
    exact (h.map _).sum_eq
  · rw [(C14_superposition lenses x y).2.1, (C14_superposition lenses' x y).2.1]
    exact (h.map _).sum_eq
  · rw [(C14_superposition lenses x y).2.2, (C14_superposition lenses' x y).2.2]
    exact (h.map _).sum_eq

/-- C14: an empty plane does nothing. -/
theorem C14_empty (x y : K) :
    (singlePlane ([] : List (LensFn K))).deflection x y = (0, 0) ∧
    (singlePlane ([] : List (LensFn K))).convergence x y = 0 ∧
    (singlePlane ([] : List (LensFn K))).potential x y = 0 := ⟨rfl, rfl, rfl⟩

private theorem sum_flatten_map {α M : Type} [AddCommMonoid M] (f : α → M) (ps : List (List α)) :
    (ps.map fun ls => (ls.map f).sum).sum = (ps.flatten.map f).sum := by
  induction ps with
  | nil => rfl
  | cons p ps ih => rw [List.map_cons, List.sum_cons, ih, List.flatten_cons, List.map_append,
      List.sum_append]

/-- C14: a plane of planes is the plane of all their members. -/
theorem C14_nesting (planes : List (List (LensFn K))) :
    singlePlane (planes.map singlePlane) = singlePlane planes.flatten := by
  refine LensFn.ext' (fun x y => ?_) (fun x y => ?_) (fun x y => ?_)
  · rw [(C14_superposition _ x y).1, (C14_superposition _ x y).1, List.map_map,
      ← sum_flatten_map]
    congr 1
    exact List.map_congr_left fun p _ => (C14_superposition p x y).1
  · rw [(C14_superposition _ x y).2.1, (C14_superposition _ x y).2.1, List.map_map,
      ← sum_flatten_map]
    congr 1
    exact List.map_congr_left fun p _ => (C14_superposition p x y).2.1
  · rw [(C14_superposition _ x y).2.2, (C14_superposition _ x y).2.2, List.map_map,
      ← sum_flatten_map]
    congr 1
    exact List.map_congr_left fun p _ => (C14_superposition p x y).2.2

/-! ### C15 -/

/-- C15: a BatchedPlane over a batch of `B` parameter sets is the SinglePlane over the `B`
individual lenses, for every chunk size and backend. -/
theorem C15_batched_eq_single {V : Type} (b : Backend) (lens : List V → LensFn K) {B : Nat}
    {params : List (Arg V)} (h : BatchOf B params) (hB : 1 ≤ B) (chunkSize : Option Nat)
    (hc : ∀ c, chunkSize = some c → 1 ≤ c) (x y : K) :
    let individual := (List.range B).map fun j => lens (rowOf params j)
    batchedPlaneDeflection b lens chunkSize params x y
        = some ((singlePlane individual).deflection x y) ∧
    batchedPlaneConvergence b lens chunkSize params x y
        = some ((singlePlane individual).convergence x y) ∧
    batchedPlanePotential b lens chunkSize params x y
        = some ((singlePlane individual).potential x y) := by
  intro individual
  have key : ∀ {R : Type} [AddMonoid R] (f : List V → R),
      vmapReduce b f chunkSize params
        = some ((List.range B).map fun j => f (rowOf params j)).sum := by
    intro R _ f
    cases chunkSize with
    | none => rw [← C13_chunk_size_irrelevant b b f h hB 1 le_rfl, C13_total b f h hB 1 le_rfl]
    | some c => exact C13_total b f h hB c (hc c rfl)
  refine ⟨?_, ?_, ?_⟩
  · rw [(C14_superposition individual x y).1, batchedPlaneDeflection, key, List.map_map]
    rfl
  · rw [(C14_superposition individual x y).2.1, batchedPlaneConvergence, key, List.map_map]
    rfl
  · rw [(C14_superposition individual x y).2.2, batchedPlanePotential, key, List.map_map]
    rfl

/-! ### C45 -/

/-- C45: LightStack brightness is the sum over members. -/
theorem C45_sum (models : List (K → K → K)) (x y : K) :
    lightStackBrightness models x y = (models.map fun m => m x y).sum := by
  unfold lightStackBrightness
  rw [foldl_add', zero_add]

/-- C45: independent of the order. -/
theorem C45_order (models models' : List (K → K → K)) (h : models.Perm models') :
    lightStackBrightness models = lightStackBrightness models' := by
  funext x y
  rw [C45_sum, C45_sum]
  exact (h.map _).sum_eq

/-- C45: an empty stack is dark. -/
theorem C45_empty (x y : K) : lightStackBrightness ([] : List (K → K → K)) x y = 0 := rfl

/-- C45: stacking stacks is stacking all members. -/
theorem C45_nesting (groups : List (List (K → K → K))) :
    lightStackBrightness (groups.map lightStackBrightness)
      = lightStackBrightness groups.flatten := by
  funext x y
  rw [C45_sum, C45_sum, List.map_map, ← sum_flatten_map]
  congr 1
  exact List.map_congr_left fun p _ => C45_sum p x y

end

/-- Three distinct lenses over the rationals, in two groupings. -/
example :
    let l : ℚ → LensFn ℚ := fun k => ⟨fun x y => (k * x, k * y), fun _ _ => k, fun x y => k * x * y⟩
    (singlePlane [l 1, l 2, l 3]).deflection 5 7 = (30, 42) ∧
    (singlePlane [singlePlane [l 1, l 2], l 3]).deflection 5 7 = (30, 42) ∧
    batchedPlaneDeflection .torch (fun p => l (p.headD 0)) (some 2) [.batched [1, 2, 3]] 5 7
      = some (30, 42) := by
  refine ⟨?_, ?_, ?_⟩ <;> norm_num [singlePlane, singlePlaneDeflection] <;> decide +kernel

end Caustics
