import Verif.Model.Flt
import Verif.Model.Light
import Verif.Model.TNFWMass

/-!
Sources and halos evaluated with floating point numbers (`Model/Flt.lean`), for parameters at the ends of their declared
ranges (`valid=` in the constructors).
-/

open Real

namespace Caustics

open Flt (fin)

/-- light/func/sersic.py:60-66 `brightness_sersic`; the exponent `1 / n` and `k` are finite (`n` is at least 0.36). -/
noncomputable def sersicFlt (x0 y0 q phi n Re Ie x y k s : ℝ) : Flt :=
  let p := translateRotate x y x0 y0 (some phi)
  let ex : Flt := fin p.1
  let ey : Flt := fin p.2 / fin q
  let e := Flt.sqrt (Flt.sq ex + Flt.sq ey) + fin s
  let exponent := fin (-k) * (Flt.pow (1 / n) (e / fin Re) - fin 1)
  fin Ie * Flt.exp exponent

/-- light/sersic.py:195-251 `Sersic.brightness`. -/
noncomputable def Sersic.brightnessFlt (lenstronomy : Bool) (s x0 y0 q phi n Re Ie x y : ℝ) : Flt :=
  let k := if lenstronomy then kLenstronomy n else kSersic n
  sersicFlt x0 y0 q phi n Re Ie x y k s

/-- light/light_stack.py:81-84 and the sums of the simulator: the brightness of several sources, added up. -/
noncomputable def sumFlt (l : List Flt) : Flt := l.foldl (· + ·) (fin 0)

/-- lenses/func/enclosed_mass.py:53-58 `physical_deflection_angle_enclosed_mass`, with `derotate` (utils.py:121-144). -/
noncomputable def enclosedFlt (Gc2 x0 y0 q phi : ℝ) (enclosed_mass : Flt → Flt) (s x y : ℝ) : Flt × Flt :=
  let p := translateRotate x y x0 y0 (some phi)
  let r := Flt.sqrt (Flt.sq (fin p.1) / fin q + fin q * Flt.sq (fin p.2)) + fin s
  let alpha := fin (4 * Gc2) * enclosed_mass r / Flt.sq r
  let ax := alpha * fin p.1 / (fin q * r)
  let ay := alpha * fin p.2 * fin q / r
  (ax * fin (cos phi) - ay * fin (sin phi), ax * fin (sin phi) + ay * fin (cos phi))

open Classical in
/-- lenses/func/tnfw.py:49-65. -/
noncomputable def tnfwFFlt (x : Flt) : Flt :=
  let xg := Flt.clampMin (1 + 1e-3) x
  let xl := Flt.clampMax (1 - 1e-3) x
  if x.ltc (1 - 1e-2) then Flt.arccosh (fin 1 / xl) / Flt.sqrt (fin 1 - Flt.sq xl)
  else if x.gtc (1 + 1e-2) then Flt.arccos (fin 1 / xg) / Flt.sqrt (Flt.sq xg - fin 1)
  else fin 1 - fin 2 * (x - fin 1) / fin 3 + fin 7 * Flt.sq (x - fin 1) / fin 15

/-- lenses/func/tnfw.py:68-72. -/
noncomputable def tnfwLFlt (x tau : Flt) : Flt := Flt.log (x / (tau + Flt.sqrt (Flt.sq tau + Flt.sq x)))

/-- lenses/func/tnfw.py:79-83. -/
noncomputable def tnfwM0TotFlt (mass tau : Flt) : Flt :=
  mass * Flt.sq (Flt.sq tau + fin 1) /
    (Flt.sq tau * ((Flt.sq tau - fin 1) * Flt.log tau + fin π * tau - (Flt.sq tau + fin 1)))

/-- lenses/func/tnfw.py:119-168. -/
noncomputable def tnfwMassEnclosedFlt (r Rs tau M0 : Flt) : Flt :=
  let g := r / Rs
  let t2 := Flt.sq tau
  let F := tnfwFFlt g
  let L := tnfwLFlt g tau
  let a1 := t2 / Flt.sq (t2 + fin 1)
  let a2 := (t2 + fin 1 + fin 2 * (Flt.sq g - fin 1)) * F
  let a3 := tau * fin π
  let a4 := (t2 - fin 1) * Flt.log tau
  let a5 := Flt.sqrt (t2 + Flt.sq g) * (fin (-π) + (t2 - fin 1) * L / tau)
  M0 * a1 * (a2 + a3 + a4 + a5)

/-- lenses/func/tnfw.py:6-46; `3 * mass / (4 * pi * DELTA * critical_density)` is a number. -/
noncomputable def tnfwConcentrationFlt (mass Rs rhoc d_l Delta : ℝ) : Flt :=
  Flt.pow (1 / 3) (fin (3 * mass) / fin (4 * π * Delta * rhoc)) / fin (Rs * d_l * arcsecToRad)

/-- lenses/func/tnfw.py:75-76. -/
noncomputable def tnfwScaleDensityFlt (c : Flt) (rhoc Delta : ℝ) : Flt :=
  fin (Delta / 3 * rhoc) * (c * c * c) / (Flt.log (fin 1 + c) - c / (fin 1 + c))

/-- `M0`, lenses/tnfw.py:234-262 with lenses/func/tnfw.py:86-116. -/
noncomputable def TNFWLens.M0Flt (L : TNFWLens) : Flt :=
  if L.interpretTotal then tnfwM0TotFlt (fin L.mass) (fin L.tau)
  else
    let c := tnfwConcentrationFlt L.mass L.Rs L.rhoc L.d_l tnfwDelta
    fin (4 * π * (L.Rs * L.d_l * arcsecToRad) ^ 3) * tnfwScaleDensityFlt c L.rhoc tnfwDelta

/-- `TNFW.reduced_deflection_angle`: lenses/tnfw.py:412-425 with lenses/func/tnfw.py:235-244; the direction and the
distances are numbers. -/
noncomputable def TNFWLens.deflectionFlt (L : TNFWLens) (x y : ℝ) : Flt × Flt :=
  let p := translateRotate x y L.x0 L.y0 none
  let r := √(p.1 ^ 2 + p.2 ^ 2) + L.s
  let theta := arctan2 p.2 p.1
  let dr := tnfwMassEnclosedFlt (fin r) (fin L.Rs) (fin L.tau) L.M0Flt / fin (r * L.d_l * arcsecToRad)
  let S := fin (4 * L.Gc2 * radToArcsec)
  (fin (L.d_ls / L.d_s) * (S * dr * fin (cos theta)), fin (L.d_ls / L.d_s) * (S * dr * fin (sin theta)))

end Caustics
