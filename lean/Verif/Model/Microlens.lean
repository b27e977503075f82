import Verif.Model.Grid
import Verif.Model.Py
import Mathlib.Analysis.SpecialFunctions.Pow.Real

/-! `sims/microlens.py`: flux of a lensed source by Monte Carlo or on a grid. -/

namespace Caustics

/-- `backend.mean` of all entries (of an empty array it is NaN; the theorems ask for samples). -/
noncomputable def meanL (l : List ℝ) : ℝ := l.sum / l.length

/-- `backend.std` of all entries, normalised by their number (backend_obj.py: `correction=0`). -/
noncomputable def stdL (l : List ℝ) : ℝ := Real.sqrt (meanL (l.map fun v => (v - meanL l) ^ 2))

/-- The field of view `(x_min, x_max, y_min, y_max)`. -/
structure Fov where
  f0 : ℝ
  f1 : ℝ
  f2 : ℝ
  f3 : ℝ

/-- sims/microlens.py:60-120 `Microlens.__call__`.  `ux`, `uy` are what the two calls of `rand(N_mcmc)`
return (any lists of `N_mcmc` numbers), so `N_mcmc` is their length; `raytrace` and `brightness` are the
lens and the source. -/
noncomputable def microlens (raytrace : ℝ → ℝ → ℝ × ℝ) (brightness : ℝ → ℝ → ℝ) (fov : Fov) (method : String)
    (ux uy : List ℝ) (nGrid : ℕ) : Except PyErr (ℝ × ℝ) :=
  let A := (fov.f1 - fov.f0) * (fov.f3 - fov.f2)
  let light := fun p : ℝ × ℝ => brightness (raytrace p.1 p.2).1 (raytrace p.1 p.2).2
  if method = "mcmc" then
    let sx := ux.map fun u => u * (fov.f1 - fov.f0) + fov.f0
    let sy := uy.map fun u => u * (fov.f3 - fov.f2) + fov.f2
    let mu := (List.zip sx sy).map light
    .ok (meanL mu * A, stdL mu * A / (ux.length : ℝ) ^ (0.5 : ℝ))
  else if method = "grid" then
    let xs := linspace fov.f0 fov.f1 nGrid
    let ys := linspace fov.f2 fov.f3 nGrid
    let mu := (xs.flatMap fun x => ys.map fun y => (x, y)).map light
    .ok (meanL mu * A, stdL mu * A / nGrid)
  else .error .valueError

end Caustics
