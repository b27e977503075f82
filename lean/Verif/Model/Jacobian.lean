import Verif.Model.Multiplane
import Verif.Model.Py
import Verif.Model.Grid

/-!
Jacobians, shear and magnification: lenses/base.py:56-137, 443-590, 946-1048 and lenses/utils.py.

A `(..., 2, 2)` tensor is one `M22` per position.  What automatic differentiation returns is not
computed here: the autograd variants take the Jacobian of the deflection as an argument, and theorems
assume that it is the true one where that matters.
-/

namespace Caustics

/-- A 2x2 matrix, `a01` is `[..., 0, 1]`. -/
@[ext] structure M22 (K : Type*) where
  a00 : K
  a01 : K
  a10 : K
  a11 : K
  deriving DecidableEq

variable {K : Type*} [Field K]

/-- `torch.gradient(f, spacing=h, edge_order=1)` along one axis with `n` samples, at sample `i`.
(With fewer than two samples it raises, see `gradient2`.) -/
def gradient1 (f : ℕ → K) (n : ℕ) (h : K) (i : ℕ) : K :=
  if i = 0 then (f 1 - f 0) / h
  else if i = n - 1 then (f (n - 1) - f (n - 2)) / h
  else (f (i + 1) - f (i - 1)) / (2 * h)

/-- `backend.gradient` of an array with `ny` rows and `nx` columns: the derivative along axis 0 (over
rows) and along axis 1 (over columns). -/
def gradient2 (a : ℕ → ℕ → K) (ny nx : ℕ) (h : K) (i j : ℕ) : Option (K × K) :=
  if ny < 2 ∨ nx < 2 then none
  else some (gradient1 (fun i => a i j) ny h i, gradient1 (fun j => a i j) nx h j)

/-- lenses/base.py:947-968 (thin) and 443-465 (thick): the finite difference Jacobian of a deflection
field sampled as `ax`, `ay`. -/
def jacFiniteDiff (ax ay : ℕ → ℕ → K) (ny nx : ℕ) (pixelscale : K) (i j : ℕ) : Option (M22 K) :=
  match gradient2 ax ny nx pixelscale i j, gradient2 ay ny nx pixelscale i j with
  | some gx, some gy => some { a01 := gx.1, a00 := gx.2, a11 := gy.1, a10 := gy.2 }
  | _, _ => none

/-- `eye(2) - J`: lenses/base.py:1033, 1048, 536, 551. -/
def lensEqJac (J : M22 K) : M22 K := ⟨1 - J.a00, 0 - J.a01, 0 - J.a10, 1 - J.a11⟩

/-- lenses/base.py:56-82 `jacobian_lens_equation`: choice of the method; the two Jacobians of the
deflection are arguments. -/
def jacobianLensEquation (method : String) (pixelscale : Option K) (autograd : M22 K)
    (finitediff : K → Option (M22 K)) : Except PyErr (M22 K) :=
  if method = "autograd" then .ok (lensEqJac autograd)
  else if method = "finitediff" then
    match pixelscale with
    | none => .error .valueError
    | some h =>
      match finitediff h with
      | some J => .ok (lensEqJac J)
      | none => .error .valueError
  else .error .valueError

/-- lenses/base.py:85-106 `shear`, from the lens equation Jacobian `A`. -/
def shearFromJac (A : M22 K) : K × K :=
  let n00 := (1 / 2) * (A.a00 + A.a11) * 1 - A.a00
  let n01 := (1 / 2) * (A.a00 + A.a11) * 0 - A.a01
  let n11 := (1 / 2) * (A.a00 + A.a11) * 1 - A.a11
  ((1 / 2) * (n00 - n11), n01)

/-- lenses/utils.py:42-72 `pixel_magnification`, from the Jacobian of the lens map; a zero determinant
gives `inf` in the code and `0` here. -/
def pixelMagnification [LinearOrder K] (A : M22 K) : K := 1 / |A.a00 * A.a11 - A.a01 * A.a10|

/-- lenses/base.py:554-571. -/
def effectiveDiv (J : M22 K) : K := (1 / 2) * (J.a00 + J.a11)

/-- lenses/base.py:574-590. -/
def effectiveCurl (J : M22 K) : K := (1 / 2) * (J.a10 - J.a01)

end Caustics
