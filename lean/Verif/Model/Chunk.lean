import Mathlib.Algebra.BigOperators.Group.List.Basic

/-!
Chunked mapping and reduction, `src/caustics/utils.py:1371-1483`, and the two array
splitting conventions of `src/caustics/backend_obj.py`.

An array batched along some axis is modelled by the list of its slices along that axis
(the axis number itself is not modelled).
-/

namespace Caustics

/-- `ceil(a / b)` of `utils.py:1380,1398` (exact arithmetic instead of float division). -/
def ceilDiv (a b : Nat) : Nat := (a + b - 1) / b

/-- Consecutive slices `xs[off i : off (i+1)]` for `i < k`. -/
def slices {α : Type} (off : Nat → Nat) (k : Nat) (xs : List α) : List (List α) :=
  (List.range k).map fun i => (xs.drop (off i)).take (off (i + 1) - off i)

/-- backend_obj.py:608-609 `_chunk_torch`: `torch.chunk(x, n)` cuts pieces of size
`ceil(len/n)` (the last one possibly shorter), so it may return fewer than `n` pieces. -/
def chunkTorch {α : Type} (n : Nat) (xs : List α) : List (List α) :=
  let s := ceilDiv xs.length n
  slices (fun i => i * s) (ceilDiv xs.length s) xs

/-- backend_obj.py:611-612 `_chunk_jax`: `array_split(x, n)` returns exactly `n` pieces, the
first `len % n` of size `len / n + 1`, the others of size `len / n`. -/
def chunkJax {α : Type} (n : Nat) (xs : List α) : List (List α) :=
  slices (fun i => i * (xs.length / n) + min i (xs.length % n)) n xs

/-- Which array library is active (backend_obj.py:33-41). -/
inductive Backend
  | torch
  | jax
  deriving DecidableEq

/-- `backend.chunk` (backend_obj.py:97, 152). -/
def Backend.chunk {α : Type} (b : Backend) (n : Nat) (xs : List α) : List (List α) :=
  match b with
  | .torch => chunkTorch n xs
  | .jax => chunkJax n xs

/-- A positional argument together with its `in_dims` entry: `None` means the value is
shared by all batch elements, otherwise it is batched. -/
inductive Arg (V : Type)
  | shared (v : V)
  | batched (vs : List V)

/-- Number of batch elements of an argument, if it is batched. -/
def Arg.size? {V : Type} : Arg V → Option Nat
  | .shared _ => none
  | .batched vs => some vs.length

/-- Value of an argument for batch element `j`. -/
def Arg.at? {V : Type} (j : Nat) : Arg V → Option V
  | .shared v => some v
  | .batched vs => vs[j]?

/-- utils.py:1372-1390 `_chunk_input`, tuple branch.
`none` stands for the Python exceptions: no batched argument when a chunk size is given
(IndexError of the `while` loop), an empty batch (`chunk` into 0 pieces) or more pieces
than `n_chunks` (IndexError of `chunks[j]`).  Shared arguments are repeated `n_chunks`
times.  The dict branch (utils.py:1391-1410) does the same with names instead of positions. -/
def chunkInput {V : Type} (b : Backend) (args : List (Arg V)) (chunkSize : Option Nat) :
    Option (List (List (Arg V))) :=
  let nChunks? : Option Nat :=
    match chunkSize with
    | none => some 1
    | some c => (args.findSome? Arg.size?).map fun B => ceilDiv B c
  match nChunks? with
  | none => none
  | some n =>
    if n = 0 then none else
    let cols : List (List (Arg V)) := args.map fun a =>
      match a with
      | .shared v => List.replicate n (.shared v)
      | .batched vs => (b.chunk n vs).map .batched
    if cols.all (fun col => decide (col.length ≤ n)) then
      some ((List.range n).map fun j => cols.filterMap fun col => col[j]?)
    else none

/-- `backend.vmap(func, in_dims)` applied to one chunk: `none` (an exception) unless there
is a batched argument and all batched arguments have the same length; otherwise the list of
results per batch element. -/
def vmapFunc {V R : Type} (func : List V → R) (args : List (Arg V)) : Option (List R) :=
  match args.findSome? Arg.size? with
  | none => none
  | some B =>
    if args.all (fun a => decide (a.size? = none ∨ a.size? = some B)) then
      (List.range B).mapM fun j => (args.mapM (Arg.at? j)).map func
    else none

/-- utils.py:1413-1483 `vmap_reduce` with the summing `reduce_func` used throughout the
package (utils.py:1415, batchedplane.py:101).  Sum over each chunk, stack, sum again.
A chunk with fewer arguments than `in_dims` (an argument cut into fewer pieces) is refused by vmap.
Tuple outputs (`out_dims=(0,0)`) are covered by taking `R` a product. -/
def vmapReduce {V R : Type} [AddMonoid R] (b : Backend) (func : List V → R)
    (chunkSize : Option Nat) (args : List (Arg V)) : Option R :=
  match chunkInput b args chunkSize with
  | none => none
  | some chunks =>
    match chunks.mapM (fun ch =>
        if ch.length = args.length then (vmapFunc func ch).map List.sum else none) with
    | none => none
    | some outs => some outs.sum

end Caustics
