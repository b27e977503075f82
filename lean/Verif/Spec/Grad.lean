import Mathlib.Analysis.Calculus.FDeriv.Basic

/-! What it means for two numbers to be the gradient of a function of two coordinates, and for four
numbers to be the Jacobian of a planar vector field. -/

namespace Caustics

/-- `u` is (totally) differentiable at `(x, y)` with partial derivatives `gx` and `gy`. -/
def HasGrad {E : Type*} [NormedAddCommGroup E] [NormedSpace ℝ E] (u : ℝ → ℝ → E) (gx gy : E)
    (x y : ℝ) : Prop :=
  HasFDerivAt (fun p : ℝ × ℝ => u p.1 p.2)
    ((ContinuousLinearMap.fst ℝ ℝ ℝ).smulRight gx + (ContinuousLinearMap.snd ℝ ℝ ℝ).smulRight gy)
    (x, y)

/-- The Jacobian of the vector field `v` at `(x, y)`, row by row. -/
def HasJac (v : ℝ → ℝ → ℝ × ℝ) (axx axy ayx ayy x y : ℝ) : Prop :=
  HasGrad (fun x y => (v x y).1) axx axy x y ∧ HasGrad (fun x y => (v x y).2) ayx ayy x y

/-- The vector field `v` is differentiable at `(x, y)`, has zero curl there and half divergence
`k`. -/
def HasKappa (v : ℝ → ℝ → ℝ × ℝ) (k x y : ℝ) : Prop :=
  ∃ axx axy ayy, HasJac v axx axy axy ayy x y ∧ k = (axx + ayy) / 2

end Caustics
