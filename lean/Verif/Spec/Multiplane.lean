import Verif.Model.Multiplane

/-!
The multiplane lens equation, written without reference to any order of the lenses.
-/

namespace Caustics

variable {K : Type} [Field K] [LinearOrder K]

/-- `beta z` is the angular position at which the ray observed at `(x, y)` meets the sphere at
redshift `z`:  `beta(z) = theta - Σ_{z_l < z} (D(z) - D(z_l)) / D(z) * alpha_l(beta(z_l))`,
with comoving distances `D` and physical deflections `alpha_l`. -/
def IsRay (dist : K → K) (lenses : List (MPlane K)) (x y : K) (beta : K → K × K) : Prop :=
  ∀ z, 0 < z →
    (beta z).1 = x - ((lenses.filter fun l => l.z < z).map fun l =>
      (dist z - dist l.z) / dist z * (l.alpha (beta l.z).1 (beta l.z).2).1).sum ∧
    (beta z).2 = y - ((lenses.filter fun l => l.z < z).map fun l =>
      (dist z - dist l.z) / dist z * (l.alpha (beta l.z).1 (beta l.z).2).2).sum

/-- Lenses listed in order of (weakly) increasing redshift. -/
def SortedByZ (lenses : List (MPlane K)) : Prop := lenses.Pairwise fun l m => l.z ≤ m.z

/-- Redshifts lie strictly between observer and source, and distances to positive redshifts are
not zero. -/
def Between (dist : K → K) (lenses : List (MPlane K)) (zs : K) : Prop :=
  (∀ l ∈ lenses, 0 < l.z ∧ l.z < zs) ∧ (0 < zs) ∧ ∀ z, 0 < z → dist z ≠ 0

/-- A plane that deflects nothing. -/
def massless (z : K) : MPlane K := ⟨z, fun _ _ => (0, 0), fun _ _ => 0⟩

end Caustics
