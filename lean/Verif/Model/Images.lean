import Verif.Model.Softening
import Verif.Model.Multiplane

/-!
The lens equation with the deflection as Python evaluates it: `raytrace` of a thin lens
(lenses/base.py:827-863), where the deflection may be `nan` (`none`).
-/

namespace Caustics

/-- lenses/base.py:827-863 `raytrace`; `none` is a `nan` deflection, which makes the result `nan`. -/
noncomputable def raytraceOpt (alpha : ℝ → ℝ → Option (ℝ × ℝ)) (x y : ℝ) : Option (ℝ × ℝ) := do
  let a ← alpha x y
  pure (x - a.1, y - a.2)

/-- The SIS as a thin lens at redshift `z`: lenses/sis.py:97-190. -/
noncomputable def sisThin (z x0 y0 Rein : ℝ) : ThinLensFn ℝ :=
  ⟨z, sisDeflection x0 y0 Rein 0, sisPotential x0 y0 Rein 0⟩

/-- The point mass as a thin lens at redshift `z`: lenses/point.py:246-340. -/
noncomputable def pointThin (z x0 y0 Rein : ℝ) : ThinLensFn ℝ :=
  ⟨z, pointDeflection x0 y0 Rein 0, pointPotential x0 y0 Rein 0⟩

end Caustics
