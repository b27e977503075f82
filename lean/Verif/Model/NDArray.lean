import Verif.Model.Chunk
import Verif.Model.Py
import Mathlib.Algebra.BigOperators.Group.List.Basic

/-!
Arrays of any number of dimensions, `flatten`/`reshape` on both array libraries
(backend_obj.py:468-475), `vmap` with a chunk size (backend_obj.py:428-442), `vmap_n`
(utils.py:1324-1368) and the evaluation pattern of the automatic-differentiation defaults in
lenses/base.py:469-490, 664-667, 750-756, 980-989.

An array is its shape and its element at each multi-index; elements at indices outside the shape
have no meaning.  Elements are kept in row-major order by `reshape`.
-/

namespace Caustics

/-- An array: `get` on indices within `shape`. -/
structure NArr (α : Type) where
  shape : List ℕ
  get : List ℕ → α

/-- Position of a multi-index in row-major order. -/
def ravel : List ℕ → List ℕ → ℕ
  | _ :: s, i :: is => i * s.prod + ravel s is
  | _, _ => 0

/-- Multi-index at a position. -/
def unravel : List ℕ → ℕ → List ℕ
  | [], _ => []
  | _ :: s, n => n / s.prod :: unravel s (n % s.prod)

/-- `reshape` to an explicit shape. -/
def NArr.reshape {α : Type} (x : NArr α) (s : List ℕ) : Except PyErr (NArr α) :=
  if s.prod = x.shape.prod then .ok ⟨s, fun idx => x.get (unravel x.shape (ravel s idx))⟩
  else .error .valueError

/-- Python's `shape[:i]` for any integer. -/
def pyTake {α : Type} (l : List α) (i : ℤ) : List α :=
  if 0 ≤ i then l.take i.toNat else l.take (l.length + i).toNat

/-- Shape of `tensor.flatten(start_dim, end_dim)` (torch). -/
def flattenShapeTorch (shape : List ℕ) (start end_ : ℤ) : Except PyErr (List ℕ) :=
  let n : ℤ := max 1 shape.length
  if start < -n ∨ n ≤ start ∨ end_ < -n ∨ n ≤ end_ then .error .indexError
  else
    let s := (start % n).toNat
    let e := (end_ % n).toNat
    if e < s then .error .valueError
    else if shape = [] then .ok [1]
    else .ok (shape.take s ++ [((shape.drop s).take (e + 1 - s)).prod] ++ shape.drop (e + 1))

/-- backend_obj.py:471-475 `_flatten_jax`: `end_dim % len(shape)`, then `reshape` with one `-1`, which
is inferred and fails if the other sizes multiply to zero or do not divide the total. -/
def flattenShapeJax (shape : List ℕ) (start end_ : ℤ) : Except PyErr (List ℕ) :=
  if shape.length = 0 then .error .zeroDivision
  else
    let e := (end_ % (shape.length : ℤ) + 1).toNat
    let before := pyTake shape start
    let after := shape.drop e
    let others := before.prod * after.prod
    if others = 0 ∨ shape.prod % others ≠ 0 then .error .valueError
    else .ok (before ++ [shape.prod / others] ++ after)

/-- `backend.flatten(x, start_dim, end_dim)`. -/
def NArr.flattenDims {α : Type} (b : Backend) (x : NArr α) (start end_ : ℤ) :
    Except PyErr (NArr α) := do
  let s ← match b with
    | .torch => flattenShapeTorch x.shape start end_
    | .jax => flattenShapeJax x.shape start end_
  x.reshape s

/-- `backend.flatten(x)`. -/
def NArr.flatten {α : Type} (b : Backend) (x : NArr α) : Except PyErr (NArr α) :=
  x.flattenDims b 0 (-1)

/-- Consecutive pieces of `c` elements (the last may be shorter). -/
def chunksOf {α : Type} (c : ℕ) (l : List α) : List (List α) :=
  if _h : c = 0 ∨ l = [] then [] else l.take c :: chunksOf c (l.drop c)
termination_by l.length
decreasing_by
  have : 0 < l.length := List.length_pos_iff.2 (fun h => _h (Or.inr h))
  simp only [List.length_drop]; omega

/-- The elements of a one-dimensional array. -/
def NArr.toList {α : Type} (x : NArr α) : List α :=
  (List.range x.shape.prod).map fun i => x.get [i]

/-- `backend.vmap(f, chunk_size=c)(x, y)` on one-dimensional arrays: the results in order.  With torch
the batch is cut into pieces of `chunk_size`, which must be positive; jax ignores the argument. -/
def vmapPair {α β : Type} (b : Backend) (chunk : Option ℕ) (f : α → α → β) (x y : NArr α) :
    Except PyErr (List β) :=
  if x.shape ≠ y.shape ∨ x.shape.length ≠ 1 then .error .valueError
  else
    match b, chunk with
    | .torch, some c =>
      if c = 0 then .error .valueError
      else .ok ((List.zipWith (List.zipWith f) (chunksOf c x.toList) (chunksOf c y.toList)).flatten)
    | _, _ => .ok (List.zipWith f x.toList y.toList)

/-- `backend.vmap(f, chunk_size)(backend.flatten(x), backend.flatten(y)).reshape(x.shape)`:
lenses/base.py:664-667 with `f` one component of the gradient of the potential (there `ay` is reshaped
to `y.shape`, the same array when the shapes agree). -/
def evalFlat {α β : Type} [Inhabited β] (b : Backend) (chunk : Option ℕ) (f : α → α → β)
    (x y : NArr α) : Except PyErr (NArr β) := do
  let fx ← x.flatten b
  let fy ← y.flatten b
  let r ← vmapPair b chunk f fx fy
  NArr.reshape ⟨[r.length], fun idx => (r[ravel [r.length] idx]?).getD default⟩ x.shape

/-- The matrix version, lenses/base.py:478-490, 750-755, 982-989: `f` has entries `f x y row col`,
stacked to `(N, 2, 2)` and reshaped to `(*x.shape, 2, 2)`. -/
def evalFlat22 {α β : Type} [Inhabited β] (b : Backend) (chunk : Option ℕ)
    (f : α → α → Bool → Bool → β) (x y : NArr α) : Except PyErr (NArr β) := do
  let fx ← x.flatten b
  let fy ← y.flatten b
  let r ← vmapPair b chunk f fx fy
  NArr.reshape ⟨[r.length, 2, 2], fun
    | [n, i, j] => (r[n]?).elim default (fun m => m (i ≠ 0) (j ≠ 0))
    | _ => default⟩ (x.shape ++ [2, 2])

/-- lenses/base.py:756: half the trace of the Hessian entries `[..., 0, 0]`, `[..., 1, 1]`. -/
def defaultConvergence {K : Type} [Field K] [Inhabited K] (b : Backend) (chunk : Option ℕ)
    (hess : K → K → Bool → Bool → K) (x y : NArr K) : Except PyErr (NArr K) := do
  let H ← evalFlat22 b chunk hess x y
  NArr.reshape ⟨H.shape.dropLast.dropLast,
    fun idx => (1 / 2) * (H.get (idx ++ [0, 0]) + H.get (idx ++ [1, 1]))⟩ x.shape

/-! ### vmap over one axis and `vmap_n` -/

/-- A function on arrays that `vmap` can be applied to: the shape of its result depends on the shape
of the argument only. -/
structure VFun (α β : Type) where
  outShape : List ℕ → Except PyErr (List ℕ)
  val : NArr α → List ℕ → β

/-- Slice `i` of an array along axis `k`. -/
def NArr.slice {α : Type} (x : NArr α) (k i : ℕ) : NArr α :=
  ⟨x.shape.eraseIdx k, fun idx => x.get (idx.insertIdx k i)⟩

/-- `backend.vmap(f, in_dims=k, out_dims=m)` for one array argument and non-negative axes. -/
def vmap1 {α β : Type} (k m : ℕ) (f : VFun α β) : VFun α β where
  outShape shape :=
    match shape[k]? with
    | none => .error .valueError
    | some n =>
      match f.outShape (shape.eraseIdx k) with
      | .error e => .error e
      | .ok s => if m ≤ s.length then .ok (s.insertIdx m n) else .error .indexError
  val x idx := f.val (x.slice k (idx[m]?.getD 0)) (idx.eraseIdx m)

/-- utils.py:1324-1368 `vmap_n(func, depth, in_dims=k, out_dims=m)`. -/
def vmapN {α β : Type} (f : VFun α β) (depth : ℤ) (k m : ℕ) : Except PyErr (VFun α β) :=
  if depth < 1 then .error .valueError
  else .ok ((vmap1 k m)^[depth.toNat] f)

end Caustics
