import Verif.Model.Triangle

/-! Geometry of triangles, stated without reference to the code's formulas. -/

namespace Caustics

variable {K : Type*} [Field K] [LinearOrder K]

/-- `v` is a convex combination of the three vertices. -/
def InTri (p : Tri K) (v : K × K) : Prop :=
  ∃ w0 w1 w2 : K, 0 ≤ w0 ∧ 0 ≤ w1 ∧ 0 ≤ w2 ∧ w0 + w1 + w2 = 1 ∧
    v = w0 • p.p0 + w1 • p.p1 + w2 • p.p2

/-- Twice the signed area. -/
def Tri.det (p : Tri K) : K :=
  (p.p1.1 - p.p0.1) * (p.p2.2 - p.p0.2) - (p.p1.2 - p.p0.2) * (p.p2.1 - p.p0.1)

/-- The point with barycentric coordinates `1 - a - b, a, b`. -/
def Tri.at (p : Tri K) (a b : K) : K × K := p.p0 + a • (p.p1 - p.p0) + b • (p.p2 - p.p0)

/-- `q` has a vertex in common with `p`. -/
def Tri.SharesVertex (p q : Tri K) : Prop :=
  ∃ x, (x = p.p0 ∨ x = p.p1 ∨ x = p.p2) ∧ (x = q.p0 ∨ x = q.p1 ∨ x = q.p2)

/-- The affine map with matrix `(a b; c d)` and offset `(e, f)`. -/
def affine (a b c d e f : K) (v : K × K) : K × K := (a * v.1 + b * v.2 + e, c * v.1 + d * v.2 + f)

end Caustics
