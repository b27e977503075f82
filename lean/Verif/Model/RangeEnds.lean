import Verif.Model.Softening

/-!
Potential and convergence of the power-law and isothermal ellipsoids with the divisions by zero (`none` is `nan` or an
infinity), as in `Model/Softening.lean`.
-/

open Real

namespace Caustics

/-- `EPL.potential`: lenses/epl.py:293-295 with lenses/func/epl.py:210-215.  An exception is `none` too. -/
noncomputable def eplPotentialOpt (x0 y0 q phi Rein t : ℝ) (n_iter : ℕ) (chunk_size : Option ℕ) (x y : ℝ) :
    Option ℝ := do
  let a ← (eplDeflection x0 y0 q phi Rein t n_iter chunk_size x y).toOption
  let a := derotate a.1 a.2 (some (-phi))
  let p := translateRotate x y x0 y0 (some phi)
  divOpt (p.1 * a.1 + p.2 * a.2) (2 - t)

/-- `EPL.convergence`: lenses/epl.py:332 with lenses/func/epl.py:285-287. -/
noncomputable def eplConvergenceOpt (x0 y0 q phi Rein t s x y : ℝ) : Option ℝ := do
  let p := translateRotate x y x0 y0 (some phi)
  let psi ← sqrtOpt (q ^ 2 * p.1 ^ 2 + p.2 ^ 2 + s ^ 2)
  let b ← divOpt (Rein * (← sqrtOpt q)) psi
  pure ((2 - t) / 2 * (← powOpt b t))

/-- `SIE.convergence`: lenses/sie.py:303 with lenses/func/sie.py:215-217. -/
noncomputable def sieConvergenceOpt (x0 y0 q phi Rein s x y : ℝ) : Option ℝ := do
  let p := translateRotate x y x0 y0 (some phi)
  let psi ← sqrtOpt (q ^ 2 * (p.1 ^ 2 + s ^ 2) + p.2 ^ 2)
  divOpt (0.5 * (← sqrtOpt q) * Rein) psi

end Caustics
