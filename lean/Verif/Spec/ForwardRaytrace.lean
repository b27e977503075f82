import Verif.Spec.Triangle

/-! The sequence of candidate lists that an image search must go through, and what "the search ended
properly" means. -/

namespace Caustics

/-- Candidates of round `k`: in round zero the initial triangles, later the four-fold split of the
previous candidates and their neighbours, in each case those whose image contains the source. -/
def candidates {K : Type*} [Field K] [LinearOrder K] (raytrace : K × K → K × K) (s : K × K)
    (E0 : List (Tri K)) : ℕ → List (Tri K)
  | 0 => locate raytrace s E0
  | k + 1 => locate raytrace s (refineTriangles (candidates raytrace s E0 k))

/-- The first candidate of a round is smaller than the resolution. -/
def Small (epsilon : ℝ) (C : List (Tri ℝ)) : Prop :=
  ∃ e, C.head? = some e ∧ triangleArea e < epsilon ^ 2

/-- The raytraced point agrees with the source, within the absolute tolerance plus the relative
tolerance `1e-5` of `allclose`. -/
def HitsSource (raytrace : ℝ × ℝ → ℝ × ℝ) (s : ℝ × ℝ) (epsilon : ℝ) (p : ℝ × ℝ) : Prop :=
  |(raytrace p).1 - s.1| ≤ epsilon + 1e-5 * |s.1| ∧ |(raytrace p).2 - s.2| ≤ epsilon + 1e-5 * |s.2|

end Caustics
