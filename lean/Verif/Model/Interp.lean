import Verif.Model.Py
import Mathlib.Algebra.BigOperators.Group.List.Basic

/-!
Interpolation routines of `utils.py:794-1321`, for one query point.
-/

namespace Caustics

variable {K : Type*} [Field K] [LinearOrder K]

/-! ### interp1d -/

/-- utils.py:794-816 `_h_poly`: the four rows of `A @ [1, t, t², t³]`. -/
def hPoly (t : K) : K × K × K × K :=
  (1 * t ^ 0 + 0 * t ^ 1 + -3 * t ^ 2 + 2 * t ^ 3,
   0 * t ^ 0 + 1 * t ^ 1 + -2 * t ^ 2 + 1 * t ^ 3,
   0 * t ^ 0 + 0 * t ^ 1 + 3 * t ^ 2 + -2 * t ^ 3,
   0 * t ^ 0 + 0 * t ^ 1 + -1 * t ^ 2 + 1 * t ^ 3)

/-- utils.py:849 `m = (y[1:] - y[:-1]) / (x[1:] - x[:-1])`. -/
def slopes (x y : List K) : List K :=
  List.zipWith (· / ·) (List.zipWith (· - ·) y.tail y.dropLast)
    (List.zipWith (· - ·) x.tail x.dropLast)

/-- utils.py:850 `m = cat([m[0:1], (m[1:] + m[:-1]) / 2, m[-1:]])`. -/
def tangents (m : List K) : List K :=
  m.take 1 ++ List.zipWith (fun a b => (a + b) / 2) m.tail m.dropLast ++ m.drop (m.length - 1)

/-- `backend.searchsorted(a, v)` for sorted `a`: the number of entries below `v`. -/
def searchsorted (a : List K) (v : K) : ℕ := (a.filter (· < v)).length

/-- utils.py:819-861 `interp1d` at one query `v`.  Knots and data of different lengths (which the
arrays would reject or broadcast) are an error here.  An `extend` string other than "const" and
"linear" means "extrapolate", as in the code. -/
def interp1d (x y : List K) (v : K) (extend : String) : Except PyErr K :=
  if x.length ≠ y.length then .error .valueError else do
    let m := tangents (slopes x y)
    let idx : ℤ := (searchsorted x.dropLast v : ℤ) - 1
    let xlo ← pyGet x idx
    let xhi ← pyGet x (idx + 1)
    let dx := xhi - xlo
    let hh := hPoly ((v - xlo) / dx)
    let ylo ← pyGet y idx
    let mlo ← pyGet m idx
    let yhi ← pyGet y (idx + 1)
    let mhi ← pyGet m (idx + 1)
    let ret := hh.1 * ylo + hh.2.1 * mlo * dx + hh.2.2.1 * yhi + hh.2.2.2 * mhi * dx
    let xe ← pyGet x (-1)
    if extend = "const" then
      let ye ← pyGet y (-1)
      return if v > xe then ye else ret
    else if extend = "linear" then
      let ye ← pyGet y (-1)
      let ye' ← pyGet y (-2)
      let xe' ← pyGet x (-2)
      return if v > xe then ye + (v - xe) * (ye - ye') / (xe - xe') else ret
    else
      return ret

/-! ### interp2d and interp3d -/

/-- `im[i, j]` with Python indexing. -/
def imGet {h w : ℕ} (im : Fin h → Fin w → K) (i j : ℤ) : Except PyErr K :=
  match pyIdx h i, pyIdx w j with
  | some a, some b => .ok (im a b)
  | _, _ => .error .indexError

/-- `cu[t, i, j]` with Python indexing. -/
def cuGet {d h w : ℕ} (cu : Fin d → Fin h → Fin w → K) (t i j : ℤ) : Except PyErr K :=
  match pyIdx d t with
  | some c => imGet (cu c) i j
  | none => .error .indexError

/-- utils.py:925-926: frame coordinate to pixel index, `0.5 * ((x + 1) * w - 1)`. -/
def toPix (x : K) (w : ℕ) : K := 1 / 2 * ((x + 1) * w - 1)

/-- Python's `(x < -1) | (x > 1)`. -/
def offFrame (x : K) : Bool := decide (x < -1) || decide (x > 1)

variable [FloorRing K]

/-- utils.py:864-961 `interp2d` for one query.  The `ndim` checks hold by typing. -/
def interp2d {h w : ℕ} (im : Fin h → Fin w → K) (x y : K) (method padding : String) :
    Except PyErr K :=
  if padding ≠ "extrapolate" ∧ padding ≠ "clamp" ∧ padding ≠ "zeros" then .error .valueError
  else do
    let x' := if padding = "clamp" then clamp x (-1) 1 else x
    let y' := if padding = "clamp" then clamp y (-1) 1 else y
    let oob := offFrame y || offFrame x
    let px := toPix x' w
    let py := toPix y' h
    let result ←
      if method = "nearest" then
        imGet im (clamp (roundHalfEven py) 0 (h - 1)) (clamp (roundHalfEven px) 0 (w - 1))
      else if method = "linear" then do
        let x0 : ℤ := clamp ⌊px⌋ 0 (w - 2)
        let y0 : ℤ := clamp ⌊py⌋ 0 (h - 2)
        let x1 := x0 + 1
        let y1 := y0 + 1
        let fa ← imGet im y0 x0
        let fb ← imGet im y1 x0
        let fc ← imGet im y0 x1
        let fd ← imGet im y1 x1
        let dx1 := (x1 : K) - px
        let dx0 := px - (x0 : K)
        let dy1 := (y1 : K) - py
        let dy0 := py - (y0 : K)
        pure (fa * dx1 * dy1 + fb * dx1 * dy0 + fc * dx0 * dy1 + fd * dx0 * dy0)
      else .error .valueError
    return if padding = "zeros" ∧ oob = true then 0 else result

/-- utils.py:964-1069 `interp3d` for one query. -/
def interp3d {d h w : ℕ} (cu : Fin d → Fin h → Fin w → K) (x y t : K) (method padding : String) :
    Except PyErr K :=
  if padding ≠ "extrapolate" ∧ padding ≠ "zeros" then .error .valueError
  else do
    let oob := offFrame y || offFrame x || offFrame t
    let px := toPix x w
    let py := toPix y h
    let pt := toPix t d
    let result ←
      if method = "nearest" then
        cuGet cu (clamp (roundHalfEven pt) 0 (d - 1)) (clamp (roundHalfEven py) 0 (h - 1))
          (clamp (roundHalfEven px) 0 (w - 1))
      else if method = "linear" then do
        let x0 : ℤ := clamp ⌊px⌋ 0 (w - 2)
        let y0 : ℤ := clamp ⌊py⌋ 0 (h - 2)
        let t0 : ℤ := clamp ⌊pt⌋ 0 (d - 2)
        let x1 := x0 + 1
        let y1 := y0 + 1
        let t1 := t0 + 1
        let fa ← cuGet cu t0 y0 x0
        let fb ← cuGet cu t0 y1 x0
        let fc ← cuGet cu t0 y0 x1
        let fd ← cuGet cu t0 y1 x1
        let fe ← cuGet cu t1 y0 x0
        let ff ← cuGet cu t1 y1 x0
        let fg ← cuGet cu t1 y0 x1
        let fh ← cuGet cu t1 y1 x1
        let xd := px - (x0 : K)
        let yd := py - (y0 : K)
        let td := pt - (t0 : K)
        let c00 := fa * (1 - xd) + fc * xd
        let c01 := fe * (1 - xd) + fg * xd
        let c10 := fb * (1 - xd) + fd * xd
        let c11 := ff * (1 - xd) + fh * xd
        let c0 := c00 * (1 - yd) + c10 * yd
        let c1 := c01 * (1 - yd) + c11 * yd
        pure (c0 * (1 - td) + c1 * td)
      else .error .valueError
    return if padding = "zeros" ∧ oob = true then 0 else result

end Caustics
