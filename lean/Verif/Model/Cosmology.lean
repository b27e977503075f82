import Verif.Model.Multiplane
import Mathlib.Analysis.SpecialFunctions.Pow.Real
import Mathlib.Analysis.Real.Pi.Bounds

/-!
`cosmology/base.py` and `cosmology/FlatLambdaCDM.py`, over the reals.
The tabulated helper function of FlatLambdaCDM (an `interp1d` of a hypergeometric function,
FlatLambdaCDM.py:60-77, 132-153) is a parameter.
-/

namespace Caustics

open Real

/-- The two abstract methods `comoving_distance` and `transverse_comoving_distance`
(cosmology/base.py:71-113) and the constant `G_over_c2` (constants.py:27). -/
structure Cosmo where
  comoving : ℝ → ℝ
  transverse : ℝ → ℝ
  GOverC2 : ℝ

namespace Cosmo

/-- cosmology/base.py:116-140. -/
def comoving12 (c : Cosmo) (z1 z2 : ℝ) : ℝ := c.comoving z2 - c.comoving z1

/-- cosmology/base.py:143-171. -/
def transverse12 (c : Cosmo) (z1 z2 : ℝ) : ℝ := c.transverse z2 - c.transverse z1

/-- cosmology/base.py:174-193. -/
noncomputable def angular (c : Cosmo) (z : ℝ) : ℝ := c.comoving z / (1 + z)

/-- cosmology/base.py:196-220. -/
noncomputable def angular12 (c : Cosmo) (z1 z2 : ℝ) : ℝ := c.comoving12 z1 z2 / (1 + z2)

/-- cosmology/base.py:223-254 `time_delay_distance`. -/
noncomputable def timeDelayDistance (c : Cosmo) (zl zs : ℝ) : ℝ :=
  (1 + zl) * c.angular zl * c.angular zs / c.angular12 zl zs

/-- cosmology/base.py:257-288 `critical_surface_density`. -/
noncomputable def criticalSurfaceDensity (c : Cosmo) (zl zs : ℝ) : ℝ :=
  c.angular zs / (4 * π * c.GOverC2 * c.angular zl * c.angular12 zl zs)

end Cosmo

/-- Parameters and constants of FlatLambdaCDM (FlatLambdaCDM.py:26-58): `h0`,
`critical_density_0`, `Om0`, the constants `c_Mpc_s`, `km_to_Mpc`, and the tabulated helper. -/
structure FlatLambda where
  h0 : ℝ
  rhoCrit0 : ℝ
  Om0 : ℝ
  cMpcS : ℝ
  kmToMpc : ℝ
  helper : ℝ → ℝ

namespace FlatLambda

/-- FlatLambdaCDM.py:92-106. -/
noncomputable def hubbleDistance (f : FlatLambda) : ℝ := f.cMpcS / (100 * f.kmToMpc) / f.h0

/-- FlatLambdaCDM.py:109-129. -/
def criticalDensity (f : FlatLambda) (z : ℝ) : ℝ :=
  f.rhoCrit0 * (f.Om0 * (1 + z) ^ 3 + (1 - f.Om0))

/-- FlatLambdaCDM.py:156-180. -/
noncomputable def comovingDistance (f : FlatLambda) (z : ℝ) : ℝ :=
  let Ode0 := 1 - f.Om0
  let ratio := (f.Om0 / Ode0) ^ (1 / 3 : ℝ)
  let dc1z := f.helper ((1 + z) * ratio)
  let dc := f.helper ratio
  f.hubbleDistance * (dc1z - dc) / (f.Om0 ^ (1 / 3 : ℝ) * Ode0 ^ (1 / 6 : ℝ))

/-- The cosmology object (FlatLambdaCDM.py:182-184: transverse = comoving). -/
noncomputable def cosmo (f : FlatLambda) (G : ℝ) : Cosmo where
  comoving := f.comovingDistance
  transverse := f.comovingDistance
  GOverC2 := G

end FlatLambda

end Caustics
