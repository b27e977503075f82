import Mathlib.Data.Int.Basic
import Mathlib.Algebra.Order.Floor.Ring

/-!
Shared pieces of Python / array-library behaviour.
-/

namespace Caustics

/-- The Python exceptions that the modelled code can raise. -/
inductive PyErr where
  | valueError
  | indexError
  | typeError
  | keyError
  | assertionError
  | notImplemented
  | unboundLocal
  | attributeError
  | zeroDivision
  deriving DecidableEq, Repr

/-- Position selected by the Python index `i` in a sequence of length `n`: negative indices count
from the end, anything else is out of range. -/
def pyIdx (n : ℕ) (i : ℤ) : Option (Fin n) :=
  if h : 0 ≤ i ∧ i < n then some ⟨i.toNat, by omega⟩
  else if h : -(n : ℤ) ≤ i ∧ i < 0 then some ⟨(i + n).toNat, by omega⟩
  else none

/-- `l[i]` with Python indexing. -/
def pyGet {A : Type*} (l : List A) (i : ℤ) : Except PyErr A :=
  match pyIdx l.length i with
  | some k => .ok (l.get k)
  | none => .error .indexError

/-- `backend.clamp(v, lo, hi)` (torch and `jnp.clip`): the upper limit wins when `hi < lo`. -/
def clamp {A : Type*} [Min A] [Max A] (v lo hi : A) : A := min (max v lo) hi

/-- `backend.round`: halves go to the even neighbour. -/
def roundHalfEven {K : Type*} [Field K] [LinearOrder K] [FloorRing K] (x : K) : ℤ :=
  let f := ⌊x⌋
  if x - f < 1 / 2 then f
  else if 1 / 2 < x - f then f + 1
  else if f % 2 = 0 then f else f + 1

end Caustics
