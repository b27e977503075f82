import Verif.Model.Chunk
import Verif.Model.Py
import Mathlib.Data.List.Basic
import Mathlib.Algebra.Field.Defs

/-!
Storage.  Array variables of the code are references to stored arrays; the augmented assignments and the
`*_at_indices` helpers write to the stored array on torch and build a new one on jax
(backend_obj.py:444-466).  The functions below are the ones of the package that write to an array:
light/light_stack.py, lenses/multiplane.py, sims/lens_source.py, utils.py (SIP, bicubic_kernels, interp1d) and
lenses/base.py.

Everything else the functions do builds new arrays and appears as an allocation of an array computed from
what the references hold.  Views of an array are identified with the array they look at.  Of the number types
only "integer" and "floating" are told apart.  `none` of the broadcasting rule is the exception raised by the
library (`valueError`; torch raises `RuntimeError`).
-/

namespace Caustics

variable {K : Type}

/-- A stored array: its shape, whether it holds floating numbers, its elements. -/
structure TArr (K : Type) where
  shape : List ℕ
  float : Bool
  get : List ℕ → K

/-- The broadcasting rule of torch and numpy, last dimension first. -/
def bcastRev : List ℕ → List ℕ → Option (List ℕ)
  | [], t => some t
  | s, [] => some s
  | a :: s, b :: t =>
    if a = b ∨ b = 1 then (bcastRev s t).map (a :: ·)
    else if a = 1 then (bcastRev s t).map (b :: ·)
    else none

/-- The shape of the sum of two arrays. -/
def bcast (s t : List ℕ) : Option (List ℕ) := (bcastRev s.reverse t.reverse).map List.reverse

/-- An element of an array read through broadcasting. -/
def TArr.bget (a : TArr K) (idx : List ℕ) : K :=
  a.get (List.zipWith (fun n i => if n = 1 then 0 else i) a.shape (idx.drop (idx.length - a.shape.length)))

/-- `a + b`. -/
def TArr.add [Add K] (a b : TArr K) : Except PyErr (TArr K) :=
  match bcast a.shape b.shape with
  | some s => .ok ⟨s, a.float || b.float, fun idx => a.bget idx + b.bget idx⟩
  | none => .error .valueError

/-- All stored arrays, in the order of their creation. -/
abbrev Heap (K : Type) := List (TArr K)

/-- A variable holding an array: the number of the array in the storage. -/
abbrev Ref := ℕ

/-- Code that reads and writes storage.  The storage survives an exception. -/
def HeapM (K : Type) (α : Type) : Type := Heap K → Except PyErr α × Heap K

instance : Monad (HeapM K) where
  pure a := fun h => (.ok a, h)
  bind m f := fun h =>
    match m h with
    | (.ok a, h') => f a h'
    | (.error e, h') => (.error e, h')

/-- Create an array. -/
def alloc (a : TArr K) : HeapM K Ref := fun h => (.ok h.length, h ++ [a])

/-- The contents of an array. -/
def load (r : Ref) : HeapM K (TArr K) := fun h =>
  match h[r]? with
  | some a => (.ok a, h)
  | none => (.error .unboundLocal, h)

/-- Overwrite the contents of an array. -/
def store (r : Ref) (a : TArr K) : HeapM K Unit := fun h => (.ok (), h.set r a)

/-- Raise an exception. -/
def throwPy {α : Type} (e : PyErr) : HeapM K α := fun h => (.error e, h)

/-- A new array computed from the contents of others. -/
def compute (rs : List Ref) (f : List (TArr K) → Except PyErr (TArr K)) : HeapM K Ref := do
  let as ← rs.mapM load
  match f as with
  | .ok a => alloc a
  | .error e => throwPy e

/-- `backend.zeros_like(x)`. -/
def zerosLike [Zero K] (x : Ref) : HeapM K Ref := do
  let a ← load x
  alloc ⟨a.shape, a.float, fun _ => 0⟩

/-- `a += b`.  torch writes to `a`: the result must have the shape of `a`, and an integer array takes no
floating numbers.  jax arrays cannot be changed; the name is bound to a new array. -/
def iadd [Add K] (lib : Backend) (a b : Ref) : HeapM K Ref := do
  let u ← load a
  let v ← load b
  match u.add v with
  | .error e => throwPy e
  | .ok s =>
    match lib with
    | .jax => alloc s
    | .torch =>
      if s.shape ≠ u.shape then throwPy .valueError
      else if s.float && !u.float then throwPy .valueError
      else do
        store a s
        pure a

/-- backend_obj.py:444-450 `fill_at_indices`: the elements selected by `sel` become `v`. -/
def fillAt (lib : Backend) (a : Ref) (sel : List ℕ → Bool) (v : List ℕ → K) : HeapM K Ref := do
  let u ← load a
  let new : TArr K := ⟨u.shape, u.float, fun idx => if sel idx then v idx else u.get idx⟩
  match lib with
  | .jax => alloc new
  | .torch => do
    store a new
    pure a

/-- `a[sel] = v` written out in the code: jax arrays refuse it. -/
def setItem (lib : Backend) (a : Ref) (sel : List ℕ → Bool) (v : List ℕ → K) : HeapM K Unit := do
  let u ← load a
  match lib with
  | .jax => throwPy .typeError
  | .torch => store a ⟨u.shape, u.float, fun idx => if sel idx then v idx else u.get idx⟩

/-- light/light_stack.py:80-84 `LightStack.brightness`.  `members` are the calls `light_model.brightness(x, y)`. -/
def stackBrightness [Zero K] [Add K] (lib : Backend) (members : List (Ref → Ref → HeapM K Ref)) (x y : Ref) :
    HeapM K Ref := do
  let b ← zerosLike x
  members.foldlM (fun b m => do
    let v ← m x y
    iadd lib b v) b

/-- One lens plane of a `Multiplane`, with the calls of the lens and the numbers the loop computes for it. -/
structure HeapPlane (K : Type) where
  deflection : Ref → Ref → HeapM K (Ref × Ref)
  potential : Ref → Ref → HeapM K Ref
  /-- `X * rad_to_arcsec / D_l` -/
  toAngle : List (TArr K) → Except PyErr (TArr K)
  /-- `theta - alpha` -/
  bend : List (TArr K) → Except PyErr (TArr K)
  /-- `X + D * theta * arcsec_to_rad` -/
  propagate : List (TArr K) → Except PyErr (TArr K)
  /-- the term with the potential -/
  shapiro : List (TArr K) → Except PyErr (TArr K)
  /-- the term with `alpha_x**2 + alpha_y**2` -/
  geometric : List (TArr K) → Except PyErr (TArr K)

/-- The variables `X, Y, theta_x, theta_y, TD` of the loop. -/
structure HeapRay where
  X : Ref
  Y : Ref
  tx : Ref
  ty : Ref
  TD : Option Ref

/-- lenses/multiplane.py:88-120, one round of the loop.  `TD` exists if a delay was asked for. -/
def heapPlane [Add K] (lib : Backend) (shapiro geometric : Bool) (s : HeapRay) (P : HeapPlane K) : HeapM K HeapRay := do
  let u ← compute [s.X] P.toAngle
  let v ← compute [s.Y] P.toAngle
  let (ax, ay) ← P.deflection u v
  let tx ← compute [s.tx, ax] P.bend
  let ty ← compute [s.ty, ay] P.bend
  let TD ← (match shapiro, s.TD with
    | true, some TD => do
      let u ← compute [s.X] P.toAngle
      let v ← compute [s.Y] P.toAngle
      let p ← P.potential u v
      let t ← compute [p] P.shapiro
      let TD ← iadd lib TD t
      pure (some TD)
    | true, none => throwPy .unboundLocal
    | false, TD => pure TD : HeapM K (Option Ref))
  let TD ← (match geometric, TD with
    | true, some TD => do
      let t ← compute [ax, ay] P.geometric
      let TD ← iadd lib TD t
      pure (some TD)
    | true, none => throwPy .unboundLocal
    | false, TD => pure TD : HeapM K (Option Ref))
  let X ← compute [s.X, tx] P.propagate
  let Y ← compute [s.Y, ty] P.propagate
  pure ⟨X, Y, tx, ty, TD⟩

/-- lenses/multiplane.py:65-134 `_raytrace_helper`: the angles are the caller's arrays, `theta_x, theta_y = x, y`. -/
def heapRaytrace [Zero K] [Add K] (lib : Backend) (shapiro geometric : Bool) (start finish : List (TArr K) → Except PyErr (TArr K))
    (planes : List (HeapPlane K)) (x y : Ref) : HeapM K (Ref × Ref × Option Ref) := do
  let X ← compute [x] start
  let Y ← compute [y] start
  let TD ← (if shapiro || geometric then do
      let t ← zerosLike x
      pure (some t)
    else pure none : HeapM K (Option Ref))
  let s ← planes.foldlM (heapPlane lib shapiro geometric) ⟨X, Y, x, y, TD⟩
  let bx ← compute [s.X] finish
  let by' ← compute [s.Y] finish
  pure (bx, by', s.TD)

/-- utils.py:311-320 `pixel_to_plane`: the two results are views of one new array. -/
def heapPixelToPlane [Zero K] [Add K] (lib : Backend) (offset plane : List (TArr K) → Except PyErr (TArr K))
    (terms : List (List (TArr K) → Except PyErr (TArr K))) (i j : Ref) : HeapM K Ref := do
  let pixel ← compute [i, j] offset
  let delta ← zerosLike pixel
  let delta ← terms.foldlM (fun d t => do
    let v ← compute [pixel] t
    iadd lib d v) delta
  compute [pixel, delta] plane

/-- utils.py:514-526 `plane_to_pixel`. -/
def heapPlaneToPixel [Zero K] [Add K] (lib : Backend) (offset invert last : List (TArr K) → Except PyErr (TArr K))
    (terms : List (List (TArr K) → Except PyErr (TArr K))) (px py : Ref) : HeapM K Ref := do
  let plane ← compute [px, py] offset
  let pixel ← compute [plane] invert
  let delta ← zerosLike plane
  let delta ← terms.foldlM (fun d t => do
    let v ← compute [pixel] t
    iadd lib d v) delta
  let shift ← compute [delta] last
  iadd lib pixel shift

/-- sims/lens_source.py:370-405, the light before the PSF.  `source` and `lensLight` are the evaluations on the
grid `grid`, `quad` is `gaussian_quadrature_integrator`, `blank` the empty image. -/
def heapScene [Add K] (lib : Backend) (quad blank : List (TArr K) → Except PyErr (TArr K))
    (source lensLight : Option (Ref → HeapM K Ref)) (grid : Ref) : HeapM K Ref := do
  let mu ← (match source with
    | some s => do
      let f ← s grid
      compute [f] quad
    | none => compute [grid] blank : HeapM K Ref)
  match lensLight with
  | some l => do
    let f ← l grid
    let g ← compute [f] quad
    iadd lib mu g
  | none => pure mu

/-- utils.py:1101-1130 `bicubic_kernels`: the writes, region by region; `regions` are the index sets with the
differences of `Z` written there. -/
def heapKernels [Zero K] (lib : Backend) (regions : List (List ((List ℕ → Bool) × (TArr K → List ℕ → K)))) (Z : Ref) :
    HeapM K (List Ref) :=
  regions.mapM fun rs => do
    let d ← zerosLike Z
    rs.foldlM (fun d r => do
      let z ← load Z
      fillAt lib d r.1 (r.2 z)) d

/-- lenses/base.py:447-465 (and 950-968): the Jacobian, four writes into an array made for the purpose. -/
def heapJacobian [Zero K] (lib : Backend) (deflection : Ref → Ref → HeapM K (Ref × Ref))
    (grads : List ((List ℕ → Bool) × (TArr K → TArr K → List ℕ → K))) (x y : Ref) : HeapM K Ref := do
  let (ax, ay) ← deflection x y
  let J ← compute [ax] fun
    | [a] => .ok ⟨a.shape ++ [2, 2], a.float, fun _ => 0⟩
    | _ => .error .valueError
  grads.foldlM (fun J g => do
    let a ← load ax
    let b ← load ay
    fillAt lib J g.1 (g.2 a b)) J

/-- utils.py:849-861 `interp1d`: the values are computed first, those beyond the last abscissa are then
overwritten if `extend` asks for it. -/
def heapInterp1d (lib : Backend) (extend : String) (values : List (TArr K) → Except PyErr (TArr K)) (beyond : TArr K → List ℕ → Bool)
    (const linear : TArr K → TArr K → TArr K → List ℕ → K) (x y xs : Ref) : HeapM K Ref := do
  let ret ← compute [x, y, xs] values
  let a ← load x
  let b ← load y
  let c ← load xs
  if extend == "const" then setItem lib ret (beyond c) (const a b c)
  else if extend == "linear" then setItem lib ret (beyond c) (linear a b c)
  else pure ()
  pure ret

/-- backend_obj.py:452-454 `add_at_indices` on torch, for a list of positions in a flat array:
`array[indices] = array[indices] + values`, all read before any is written.  If a position is repeated, one of its
values is written (here the last). -/
def addAtTorch [Add K] (a : ℕ → K) (idx : List (ℕ × K)) : ℕ → K :=
  (idx.map fun p => (p.1, a p.1 + p.2)).foldl (fun b p => Function.update b p.1 p.2) a

/-- backend_obj.py:456-458 `add_at_indices` on jax: every value is added. -/
def addAtJax [Add K] (a : ℕ → K) (idx : List (ℕ × K)) : ℕ → K :=
  idx.foldl (fun b p => Function.update b p.1 (b p.1 + p.2)) a

end Caustics
