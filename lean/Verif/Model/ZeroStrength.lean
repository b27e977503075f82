import Verif.Model.Softening
import Verif.Model.TNFWMass

/-!
The normalisation of a truncated NFW lens with the divisions by zero (`none` is `nan` or an infinity), as in
`Model/Softening.lean`.
-/

open Real

namespace Caustics

/-- lenses/func/tnfw.py:6-46. -/
noncomputable def tnfwConcentrationOpt (mass Rs rhoc d_l Delta : ℝ) : Option ℝ := do
  let v ← divOpt (3 * mass) (4 * π * Delta * rhoc)
  divOpt (← powOpt v (1 / 3)) (Rs * d_l * arcsecToRad)

/-- lenses/func/tnfw.py:75-76. -/
noncomputable def tnfwScaleDensityOpt (c rhoc Delta : ℝ) : Option ℝ := do
  let l ← logOpt (1 + c)
  let v ← divOpt c (1 + c)
  divOpt (Delta / 3 * rhoc * c ^ 3) (l - v)

/-- lenses/func/tnfw.py:79-83. -/
noncomputable def tnfwM0TotOpt (mass tau : ℝ) : Option ℝ := do
  let l ← logOpt tau
  divOpt (mass * (tau ^ 2 + 1) ^ 2) (tau ^ 2 * ((tau ^ 2 - 1) * l + π * tau - (tau ^ 2 + 1)))

/-- `M0`, lenses/tnfw.py:234-262 with lenses/func/tnfw.py:86-116. -/
noncomputable def TNFWLens.M0Opt (L : TNFWLens) : Option ℝ :=
  if L.interpretTotal then tnfwM0TotOpt L.mass L.tau
  else do
    let c ← tnfwConcentrationOpt L.mass L.Rs L.rhoc L.d_l tnfwDelta
    let d ← tnfwScaleDensityOpt c L.rhoc tnfwDelta
    pure (4 * π * (L.Rs * L.d_l * arcsecToRad) ^ 3 * d)

/-- `TNFW.reduced_deflection_angle`: lenses/tnfw.py:380-425. -/
noncomputable def TNFWLens.deflectionOpt (L : TNFWLens) (x y : ℝ) : Option (ℝ × ℝ) := do
  let M0 ← L.M0Opt
  { L.toTNFW with M0 := M0 }.deflectionOpt x y

/-- lenses/func/nfw.py:118-141; `where` discards the branch that is not selected. -/
noncomputable def nfwFOpt (x : ℝ) : Option ℝ := do
  let xg := max x (1 + 1e-6)
  let xl := min x (1 - 1e-6)
  if x > 1 then do
    let a := 2 * arctan (← sqrtOpt (← divOpt (xg - 1) (xg + 1)))
    pure (1 - (← divOpt a (← sqrtOpt (xg ^ 2 - 1))))
  else if x < 1 then do
    let a := 2 * (← atanhOpt (← sqrtOpt (← divOpt (1 - xl) (1 + xl))))
    pure (1 - (← divOpt a (← sqrtOpt (1 - xl ^ 2))))
  else pure 0

/-- `NFW.convergence`: lenses/nfw.py:324-340 with lenses/func/nfw.py:319-327. -/
noncomputable def NFW.convergenceOpt (L : NFW) (x y : ℝ) : Option ℝ := do
  let p := translateRotate x y L.x0 L.y0 none
  let th := (← sqrtOpt (p.1 ^ 2 + p.2 ^ 2)) + L.s
  let rs ← nfwScaleRadiusOpt L.rhoc L.mass L.c L.Delta
  let r ← divOpt (L.d_l * th * arcsecToRad) rs
  let ds ← nfwScaleDensityOpt L.rhoc L.c L.Delta
  let k ← divOpt (rs * ds) L.sigmacr
  divOpt (2 * k * (← nfwFOpt r)) (r ^ 2 - 1)

end Caustics
