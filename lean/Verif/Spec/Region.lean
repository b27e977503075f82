import Mathlib.Analysis.SpecialFunctions.Trigonometric.Basic

/-! Regions of the sky over which mass is counted. -/

open Real

namespace Caustics

/-- The disc of radius `R` about `(x0, y0)`. -/
def skyDisc (x0 y0 R : ℝ) : Set (ℝ × ℝ) := {p | (p.1 - x0) ^ 2 + (p.2 - y0) ^ 2 ≤ R ^ 2}

/-- The ellipse about `(x0, y0)` with semi-axes `R / √q` at position angle `phi` and `R √q` across. -/
def skyEllipse (x0 y0 q phi R : ℝ) : Set (ℝ × ℝ) :=
  {p | q * ((p.1 - x0) * cos phi + (p.2 - y0) * sin phi) ^ 2
    + ((p.2 - y0) * cos phi - (p.1 - x0) * sin phi) ^ 2 / q ≤ R ^ 2}

end Caustics
