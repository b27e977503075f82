import Mathlib.Algebra.Order.Field.Basic
import Mathlib.Algebra.BigOperators.Group.List.Basic

/-!
Pixel grids and sub-pixel quadrature, `utils.py:168-196` and `utils.py:605-755`.
Arrays are lists of rows.
-/

namespace Caustics

variable {K : Type*} [Field K]

/-- `backend.linspace(lo, hi, n)`: `n` equally spaced values, only `lo` when `n = 1`. -/
def linspace (lo hi : K) (n : ℕ) : List K :=
  (List.range n).map fun (i : ℕ) => if n = 1 then lo else lo + (i : K) * ((hi - lo) / ((n : K) - 1))

/-- `backend.meshgrid([xs, ys], indexing="xy")`: two arrays with one row per entry of `ys` and one
column per entry of `xs`. -/
def meshgridXY {A : Type*} (xs ys : List A) : List (List A) × List (List A) :=
  (ys.map fun _ => xs, ys.map fun y => xs.map fun _ => y)

/-- utils.py:168-196 `meshgrid`; `ny = none` is Python's `ny=None`. -/
def meshgrid (pixelscale : K) (nx : ℕ) (ny : Option ℕ) : List (List K) × List (List K) :=
  let ny := ny.getD nx
  let xs := (linspace (-1) 1 nx).map fun v => v * pixelscale * ((nx : K) - 1) / 2
  let ys := (linspace (-1) 1 ny).map fun v => v * pixelscale * ((ny : K) - 1) / 2
  meshgridXY xs ys

/-- utils.py:605-635 `_quad_table`: the flattened sub-pixel offsets and weights.  The argument
`rule` is what `scipy.special.roots_legendre(n)` returned, as (abscissa, weight) pairs; the
`lru_cache` is invisible. -/
def quadTable (rule : List (K × K)) (p : K) : List (K × K × K) :=
  let a := rule.map fun r => p * r.1 / 2
  let w := rule.map Prod.snd
  let XY := meshgridXY a a
  let W := w.map fun wi => w.map fun wj => wi * wj / 4
  List.zip XY.1.flatten (List.zip XY.2.flatten W.flatten)

/-- utils.py:638-681 `gaussian_quadrature_grid` at one pixel `(X, Y)`: sub-pixel positions and
weights. -/
def quadGrid (rule : List (K × K)) (p X Y : K) : List (K × K × K) :=
  (quadTable rule p).map fun t => (X + t.1, Y + t.2.1, t.2.2)

/-- utils.py:684-718 `gaussian_quadrature_integrator` at one pixel. -/
def quadIntegrate (F weight : List K) : K := (List.zipWith (· * ·) F weight).sum

/-- utils.py:721-755 `quad` at one pixel. -/
def quad (rule : List (K × K)) (F : K → K → K) (p X Y : K) : K :=
  let g := quadGrid rule p X Y
  quadIntegrate (g.map fun t => F t.1 t.2.1) (g.map fun t => t.2.2)

end Caustics
