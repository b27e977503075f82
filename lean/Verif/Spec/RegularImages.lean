import Verif.Spec.Triangle
import Mathlib.Analysis.Normed.Field.Basic
import Mathlib.Analysis.Normed.Group.Constructions
import Mathlib.Data.Real.Basic

/-! Images at which the lens map has a definite linear behaviour. -/

namespace Caustics

/-- `v` is a regular image on the scale `r`: on the square of half width `r` about `v`, the lens map
followed by some invertible matrix moves any two points apart as the identity does, up to an eighth. -/
def RegularImage (R : ℝ × ℝ → ℝ × ℝ) (v : ℝ × ℝ) (r : ℝ) : Prop :=
  ∃ a b c d : ℝ, a * d - b * c ≠ 0 ∧ ∀ p q : ℝ × ℝ, ‖p - v‖ ≤ r → ‖q - v‖ ≤ r →
    ‖affine a b c d 0 0 (R p - R q) - (p - q)‖ ≤ 1 / 8 * ‖p - q‖

end Caustics
