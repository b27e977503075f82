import Mathlib.Algebra.Order.Field.Basic

/-! Vocabulary for statements about interpolation tables. -/

namespace Caustics

variable {K : Type*} [Field K]

/-- A usable table: as many values as knots, at least two, knots strictly increasing. -/
structure Table [LinearOrder K] (x y : List K) : Prop where
  len : x.length = y.length
  two : 2 ≤ x.length
  sorted : x.Pairwise (· < ·)

/-- A sequence of segment slopes averaged at interior knots, one-sided at the two ends. -/
def tangentAt (s : ℕ → K) (n i : ℕ) : K :=
  if i = 0 then s 0 else if i = n - 1 then s (n - 2) else (s i + s (i - 1)) / 2

/-- The slope of segment `i`. -/
def slopeAt (x y : List K) (i : ℕ) : K :=
  (y.getD (i + 1) 0 - y.getD i 0) / (x.getD (i + 1) 0 - x.getD i 0)

/-- The tangent at knot `i` of a table. -/
def knotTangent (x y : List K) (i : ℕ) : K := tangentAt (slopeAt x y) x.length i

/-- Value at `(s, t)` of the bilinear function with corner values `a` (0,0), `b` (1,0), `c` (0,1)
and `d` (1,1). -/
def bilinear (a b c d s t : K) : K :=
  (1 - t) * ((1 - s) * a + s * b) + t * ((1 - s) * c + s * d)

/-- The padding modes `interp2d` accepts. -/
def Pad2 (p : String) : Prop := p = "extrapolate" ∨ p = "clamp" ∨ p = "zeros"

/-- The padding modes `interp3d` accepts. -/
def Pad3 (p : String) : Prop := p = "extrapolate" ∨ p = "zeros"

/-- Frame coordinate of the centre of pixel `j` out of `n`. -/
def centre (n j : ℕ) : K := (2 * (j : K) + 1) / (n : K) - 1

/-- Continuous pixel coordinate of the frame coordinate `x`: pixel `j` is centred on `j`, the frame
`[-1, 1]` is `[-1/2, n - 1/2]`. -/
def pixCoord (n : ℕ) (x : K) : K := (n : K) * (x + 1) / 2 - 1 / 2

end Caustics
