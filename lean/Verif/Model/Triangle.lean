import Verif.Model.Grid
import Verif.Model.Py
import Mathlib.Algebra.Order.Field.Basic
import Mathlib.Algebra.Module.Prod
import Mathlib.Analysis.SpecialFunctions.Pow.Real

/-!
Image finding (lenses/func/base.py:7-244): triangles, their subdivision and neighbours, removal of
duplicates, and the search loop `forward_raytrace`.

Points are pairs over a linearly ordered field (over ℝ for the search, which takes norms); tensors
with a leading batch axis are lists.  Batched calls through `vmap` are maps.  NaN and infinities are
not represented; the one division is guarded as explained at `triangleContains`.
-/

namespace Caustics

/-- A `(3, 2)` tensor. -/
@[ext] structure Tri (K : Type*) where
  p0 : K × K
  p1 : K × K
  p2 : K × K
  deriving DecidableEq

section

variable {K : Type*} [Field K] [LinearOrder K]

/-- `p + d` for a triangle and a vector (broadcast over the vertices). -/
def Tri.shift (p : Tri K) (d : K × K) : Tri K := ⟨p.p0 + d, p.p1 + d, p.p2 + d⟩

/-- A map of the plane applied to the vertices. -/
def Tri.map (f : K × K → K × K) (p : Tri K) : Tri K := ⟨f p.p0, f p.p1, f p.p2⟩

/-- lenses/func/base.py:7-21.  For a degenerate triangle the division gives ±inf or nan for both `a`
and `b`; then `a >= 0`, `b >= 0` and `a + b <= 1` cannot all hold and the answer is `False`. -/
def triangleContains (p : Tri K) (v : K × K) : Bool :=
  let p01 := p.p1 - p.p0
  let p02 := p.p2 - p.p0
  let dp0p02 := p.p0.1 * p02.2 - p.p0.2 * p02.1
  let dp0p01 := p.p0.1 * p01.2 - p.p0.2 * p01.1
  let dp01p02 := p01.1 * p02.2 - p01.2 * p02.1
  let dvp02 := v.1 * p02.2 - v.2 * p02.1
  let dvp01 := v.1 * p01.2 - v.2 * p01.1
  if dp01p02 = 0 then false
  else
    let a := (dvp02 - dp0p02) / dp01p02
    let b := -(dvp01 - dp0p01) / dp01p02
    decide (0 ≤ a) && decide (0 ≤ b) && decide (a + b ≤ 1)

/-- lenses/func/base.py:24-32. -/
def triangleArea (p : Tri K) : K :=
  (1 / 2) * |p.p0.1 * (p.p1.2 - p.p2.2) + p.p1.1 * (p.p2.2 - p.p0.2) + p.p2.1 * (p.p0.2 - p.p1.2)|

/-- lenses/func/base.py:35-62. -/
def triangleNeighbors (p : Tri K) : List (Tri K) :=
  let p01 := p.p1 - p.p0
  let p02 := p.p2 - p.p0
  let p12 := p.p2 - p.p1
  let pref : Tri K := ⟨-(p.p0 - p.p0) + p.p0, -(p.p1 - p.p0) + p.p0, -(p.p2 - p.p0) + p.p0⟩
  [p, p.shift p01, p.shift (-p01), p.shift p02, p.shift (-p02), p.shift p12, p.shift (-p12), pref,
    pref.shift p01, pref.shift (p01 + p01), pref.shift p02, pref.shift (p02 + p02),
    (pref.shift p01).shift p02]

/-- `(p + q) / 2`. -/
def midpt (p q : K × K) : K × K := ((p.1 + q.1) / 2, (p.2 + q.2) / 2)

/-- lenses/func/base.py:65-81. -/
def triangleUpsample (p : Tri K) : List (Tri K) :=
  let p01 := midpt p.p1 p.p0
  let p02 := midpt p.p2 p.p0
  let p12 := midpt p.p2 p.p1
  [⟨p.p0, p01, p02⟩, ⟨p01, p.p1, p12⟩, ⟨p02, p12, p.p2⟩, ⟨p01, p12, p02⟩]

/-- lenses/func/base.py:84-88. -/
def triangleEquals (p q : Tri K) : Bool :=
  let close (a b : K × K) : Bool := decide (|a.1 - b.1| < 1 / 1000000) && decide (|a.2 - b.2| < 1 / 1000000)
  close p.p0 q.p0 && close p.p1 q.p1 && close p.p2 q.p2

/-- The loop shared by `remove_triangle_duplicates` (lenses/func/base.py:91-102) and
`remove_duplicate_points` (163-175): walk through the input, appending what is not close to anything
kept so far.  (For the first element the kept list is empty, so the `i == 0` test changes nothing.) -/
def dedupLoop {A : Type*} (close : A → A → Bool) (kept : List A) : List A → List A
  | [] => kept
  | x :: xs => dedupLoop close (if kept.any (close x) then kept else kept ++ [x]) xs

/-- lenses/func/base.py:91-102. -/
def removeTriangleDuplicates (l : List (Tri K)) : List (Tri K) := dedupLoop triangleEquals [] l

/-- lenses/func/base.py:180-197: the two triangles of every grid square; first all `(i,j)`,
`(i,j+1)`, `(i+1,j+1)`, then all `(i,j)`, `(i+1,j)`, `(i+1,j+1)`, in row-major order. -/
def initialTriangles (x0 y0 fov : K) (n : ℕ) : List (Tri K) :=
  let xs := linspace (x0 - fov / 2) (x0 + fov / 2) n
  let ys := linspace (y0 - fov / 2) (y0 + fov / 2) n
  let E (i j : ℕ) : K × K := (xs.getD i 0, ys.getD j 0)
  let idx := (List.range (n - 1)).flatMap fun i => (List.range (n - 1)).map fun j => (i, j)
  idx.map (fun q => ⟨E q.1 q.2, E q.1 (q.2 + 1), E (q.1 + 1) (q.2 + 1)⟩)
    ++ idx.map (fun q => ⟨E q.1 q.2, E (q.1 + 1) q.2, E (q.1 + 1) (q.2 + 1)⟩)

/-- lenses/func/base.py:203-209: neighbours, duplicates removed, each split in four. -/
def refineTriangles (E : List (Tri K)) : List (Tri K) :=
  (removeTriangleDuplicates (E.flatMap triangleNeighbors)).flatMap triangleUpsample

/-- lenses/func/base.py:211-216: keep the triangles whose image contains the source. -/
def locate (raytrace : K × K → K × K) (s : K × K) (E : List (Tri K)) : List (Tri K) :=
  E.filter fun t => triangleContains (t.map raytrace) s

end

/-- `backend.norm` of a difference of two points. -/
noncomputable def dist2 (p q : ℝ × ℝ) : ℝ := Real.sqrt ((p.1 - q.1) ^ 2 + (p.2 - q.2) ^ 2)

open Classical in
/-- lenses/func/base.py:163-175. -/
noncomputable def removeDuplicatePoints (l : List (ℝ × ℝ)) (epsilon : ℝ) : List (ℝ × ℝ) :=
  dedupLoop (fun p q => decide (dist2 p q < epsilon)) [] l

open Classical in
/-- `backend.allclose(Smid, s, atol=epsilon)` for one point, with the default `rtol = 1e-5`. -/
noncomputable def closeTo (epsilon : ℝ) (s p : ℝ × ℝ) : Bool :=
  decide (|p.1 - s.1| ≤ epsilon + 1e-5 * |s.1|) && decide (|p.2 - s.2| ≤ epsilon + 1e-5 * |s.2|)

/-- Mean of the vertices (lenses/func/base.py:222). -/
noncomputable def centroid (t : Tri ℝ) : ℝ × ℝ :=
  ((t.p0.1 + t.p1.1 + t.p2.1) / 3, (t.p0.2 + t.p1.2 + t.p2.2) / 3)

open Classical in
/-- lenses/func/base.py:200-239, the loop from the top with counter `i`, candidates `E` and the
variable `Emid` (unset before its first assignment).  Returns `Emid` at the `break` and the number of
rounds.  `rootfind` stands for `forward_raytrace_rootfind`, an arbitrary function of the batch here. -/
noncomputable def frLoop (raytrace : ℝ × ℝ → ℝ × ℝ) (rootfind : List (ℝ × ℝ) → List (ℝ × ℝ))
    (s : ℝ × ℝ) (epsilon : ℝ) (max_depth : ℕ) (i : ℕ) (E : List (Tri ℝ))
    (Emid : Option (List (ℝ × ℝ))) : Except PyErr (List (ℝ × ℝ) × ℕ) :=
  let E := if i > 0 then refineTriangles E else E
  match locate raytrace s E with
  | [] => .error .indexError
  | e :: E' =>
    let E := e :: E'
    if triangleArea e < epsilon ^ 2 then
      let M := rootfind (E.map centroid)
      if (List.zipWith triangleContains E M).all id && (M.map raytrace).all (closeTo epsilon s) then
        .ok (M, i + 1)
      else
        let M := M.filter fun p => decide (dist2 (raytrace p) s < epsilon)
        if h : i + 1 > max_depth then .ok (M, i + 1)
        else frLoop raytrace rootfind s epsilon max_depth (i + 1) E (some M)
    else if h : i + 1 > max_depth then
      match Emid with
      | none => .error .unboundLocal
      | some M => .ok (M, i + 1)
    else frLoop raytrace rootfind s epsilon max_depth (i + 1) E Emid
  termination_by max_depth - i
  decreasing_by all_goals omega

/-- lenses/func/base.py:178-244. -/
noncomputable def forwardRaytrace (s : ℝ × ℝ) (raytrace : ℝ × ℝ → ℝ × ℝ)
    (rootfind : List (ℝ × ℝ) → List (ℝ × ℝ)) (x0 y0 fov : ℝ) (n : ℕ) (epsilon : ℝ) (max_depth : ℕ) :
    Except PyErr (List (ℝ × ℝ)) :=
  match frLoop raytrace rootfind s epsilon max_depth 0 (initialTriangles x0 y0 fov n) none with
  | .error e => .error e
  | .ok (M, _) => .ok (removeDuplicatePoints M epsilon)

end Caustics
