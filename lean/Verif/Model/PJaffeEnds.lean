import Verif.Model.Softening

/-!
The pseudo-Jaffe lens with every division, root and logarithm checked, so that parameters at which
the formulas stop being numbers show up as `none`.  `none` stands for NaN or an infinity: in the code
a division by zero gives `inf` or NaN, and the formulas below then multiply it by zero.
-/

namespace Caustics
open Real

/-- lenses/func/pseudo_jaffe.py:6-47; `PseudoJaffe.get_convergence_0` (lenses/pseudo_jaffe.py:165-176)
writes the same expression. -/
noncomputable def pjKappa0Opt (mass Rc Rs d_l sigmacr : ℝ) : Option ℝ :=
  divOpt mass (2 * π * sigmacr * Rc * Rs * (d_l * arcsecToRad) ^ 2)

/-- lenses/func/pseudo_jaffe.py:50-82. -/
noncomputable def pjMassEnclosedOpt (radius mass Rc Rs s : ℝ) : Option ℝ := do
  let theta := radius + s
  let a ← sqrtOpt (Rc ^ 2 + theta ^ 2)
  let b ← sqrtOpt (Rs ^ 2 + theta ^ 2)
  divOpt (mass * (a - Rc - b + Rs)) (Rs - Rc)

/-- lenses/func/pseudo_jaffe.py:241-303. -/
noncomputable def PJaffe.convergenceOpt (L : PJaffe) (x y : ℝ) : Option ℝ := do
  let p := translateRotate x y L.x0 L.y0 none
  let R2 := p.1 ^ 2 + p.2 ^ 2 + L.s
  let k ← pjKappa0Opt L.mass L.Rc L.Rs L.d_l L.sigmacr
  let coeff ← divOpt (k * L.Rc * L.Rs) (L.Rs - L.Rc)
  let a ← divOpt 1 (← sqrtOpt (L.Rc ^ 2 + R2))
  let b ← divOpt 1 (← sqrtOpt (L.Rs ^ 2 + R2))
  pure (coeff * (a - b))

/-- lenses/func/pseudo_jaffe.py:153-238. -/
noncomputable def PJaffe.potentialOpt (L : PJaffe) (x y : ℝ) : Option ℝ := do
  let p := translateRotate x y L.x0 L.y0 none
  let R2 := p.1 ^ 2 + p.2 ^ 2 + L.s
  let sd0 ← pjKappa0Opt L.mass L.Rc L.Rs L.d_l 1
  let d ← divOpt (L.d_l * L.d_ls) L.d_s
  let coeff ← divOpt (8 * π * L.Gc2 * sd0 * d * L.Rc * L.Rs) (L.Rs - L.Rc)
  let a ← sqrtOpt (L.Rs ^ 2 + R2)
  let b ← sqrtOpt (L.Rc ^ 2 + R2)
  let c ← logOpt (L.Rc + b)
  let e ← logOpt (L.Rs + a)
  pure (-coeff * (a - b + L.Rc * c - L.Rs * e))

/-- `PseudoJaffe.central_convergence`: lenses/pseudo_jaffe.py:206-244; the radii here are in Mpc. -/
noncomputable def pjCentralConvergence (rho0 Rc Rs sigmacr : ℝ) : ℝ :=
  π * rho0 * Rc * Rs / ((Rc + Rs) * sigmacr)

end Caustics
