import Mathlib.Data.Real.Basic

/-! What softening is for: a deflection field without a singularity at the lens. -/

namespace Caustics

/-- The field `defl` (`none` where it is not a finite number) is defined at every position, vanishes
at the centre `(x0, y0)` and is small near it. -/
structure RegularAtCentre (defl : ℝ → ℝ → Option (ℝ × ℝ)) (x0 y0 : ℝ) : Prop where
  total : ∀ x y, ∃ a, defl x y = some a
  centre : defl x0 y0 = some (0, 0)
  near : ∀ ε > 0, ∃ δ > 0, ∀ x y a, |x - x0| < δ → |y - y0| < δ → defl x y = some a →
    |a.1| < ε ∧ |a.2| < ε

end Caustics
