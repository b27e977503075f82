import Verif.Model.Interp
import Verif.Model.Grid
import Verif.Model.Cosmology
import Verif.Model.Softening
import Mathlib.Analysis.SpecialFunctions.Gamma.Basic
import Mathlib.MeasureTheory.Integral.IntervalIntegral.Basic

/-!
The tabulated helper of `cosmology/FlatLambdaCDM.py`, over the reals (the table is stored in float32).
-/

namespace Caustics

open Real

/-- `scipy.special.hyp2f1`, as Euler's integral (for `0 < a < c` and `z < 1`, which is how it is called here). -/
noncomputable def hyp2f1 (a b c z : ℝ) : ℝ :=
  Real.Gamma c / (Real.Gamma a * Real.Gamma (c - a)) * ∫ t in (0 : ℝ)..1, t ^ (a - 1) * (1 - t) ^ (c - a - 1) * (1 - z * t) ^ (-b)

/-- FlatLambdaCDM.py:66-68. -/
noncomputable def lambdaGrid : List ℝ := (linspace (-3 : ℝ) 1 500).map fun e => (10 : ℝ) ^ e

/-- FlatLambdaCDM.py:69-73. -/
noncomputable def lambdaTable : List ℝ := lambdaGrid.map fun x => x * hyp2f1 (1 / 3) (1 / 2) (4 / 3) (-(x ^ 3))

/-- FlatLambdaCDM.py:131-153 `_comoving_distance_helper`. -/
noncomputable def lambdaHelper (x : ℝ) : Except PyErr ℝ := interp1d lambdaGrid lambdaTable x "extrapolate"

/-- FlatLambdaCDM.py:92-106, 155-180 `comoving_distance`; `none` is NaN or infinite. -/
noncomputable def comovingOpt (h0 Om0 cMpcS kmToMpc z : ℝ) : Option ℝ := do
  let Ode0 := 1 - Om0
  let ratio ← powOpt (← divOpt Om0 Ode0) (1 / 3)
  let DH ← divOpt (cMpcS / (100 * kmToMpc)) h0
  let DC1z ← (lambdaHelper ((1 + z) * ratio)).toOption
  let DC ← (lambdaHelper ratio).toOption
  divOpt (DH * (DC1z - DC)) ((← powOpt Om0 (1 / 3)) * (← powOpt Ode0 (1 / 6)))

end Caustics
