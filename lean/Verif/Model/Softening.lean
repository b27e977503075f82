import Verif.Model.Lenses
import Verif.Model.EPL

/-!
The deflection of every lens class that takes a softening parameter `s`, with the arithmetic that
can leave the finite numbers made explicit: `none` is a `nan` or an infinity.

`Model/Lenses.lean` states the same functions with total arithmetic and excludes the points where
Python divides by zero.  Here those points are part of the model.  An intermediate infinity counts as
`none` although Python might still turn it into a finite value; this happens at no point that the
statements below mention.
-/

open Real

namespace Caustics

/-- `backend.sqrt`: `nan` for a negative argument. -/
noncomputable def sqrtOpt (a : ℝ) : Option ℝ := if 0 ≤ a then some (√a) else none

/-- `backend.log`: `-inf` at zero, `nan` below. -/
noncomputable def logOpt (a : ℝ) : Option ℝ := if 0 < a then some (log a) else none

/-- `backend.atanh`: infinite or `nan` outside the open interval. -/
noncomputable def atanhOpt (a : ℝ) : Option ℝ := if |a| < 1 then some (artanh a) else none

/-- `backend.arccosh`: `nan` below one. -/
noncomputable def acoshOpt (a : ℝ) : Option ℝ := if 1 ≤ a then some (arcosh a) else none

/-- `backend.arccos`: `nan` outside the closed interval. -/
noncomputable def acosOpt (a : ℝ) : Option ℝ := if |a| ≤ 1 then some (arccos a) else none

/-- `a ** b` for a base that is not negative; at zero only non-negative powers are finite. -/
noncomputable def powOpt (a b : ℝ) : Option ℝ :=
  if 0 < a ∨ (a = 0 ∧ 0 ≤ b) then some (a ^ b) else none

/-- `SIS.reduced_deflection_angle`: lenses/sis.py:130 with lenses/func/sis.py:54-58. -/
noncomputable def sisDeflectionOpt (x0 y0 Rein s x y : ℝ) : Option (ℝ × ℝ) := do
  let p := translateRotate x y x0 y0 none
  let R := (← sqrtOpt (p.1 ^ 2 + p.2 ^ 2)) + s
  let ax ← divOpt (Rein * p.1) R
  let ay ← divOpt (Rein * p.2) R
  pure (ax, ay)

/-- `Point.reduced_deflection_angle`: lenses/point.py:276 with lenses/func/point.py:56-60. -/
noncomputable def pointDeflectionOpt (x0 y0 Rein s x y : ℝ) : Option (ℝ × ℝ) := do
  let p := translateRotate x y x0 y0 none
  let th := (← sqrtOpt (p.1 ^ 2 + p.2 ^ 2)) + s
  let ax ← divOpt (p.1 * Rein ^ 2) (th ^ 2)
  let ay ← divOpt (p.2 * Rein ^ 2) (th ^ 2)
  pure (ax, ay)

/-- `SIE.reduced_deflection_angle`: lenses/sie.py:231 with lenses/func/sie.py:67-81. -/
noncomputable def sieDeflectionOpt (x0 y0 q phi Rein s x y : ℝ) : Option (ℝ × ℝ) := do
  let q := sieQ q
  let p := translateRotate x y x0 y0 (some phi)
  let f ← sqrtOpt (1 - q ^ 2)
  let b ← divOpt (Rein * (← sqrtOpt q)) f
  let psi ← sqrtOpt (q ^ 2 * (p.1 ^ 2 + s ^ 2) + p.2 ^ 2)
  let u ← divOpt (f * p.1) (psi + s)
  let v ← atanhOpt (← divOpt (f * p.2) (psi + q ^ 2 * s))
  pure (derotate (b * arctan u) (b * v) (some phi))

/-- The physical deflection scaled by `d_ls / d_s`, lenses/func/base.py:289-330. -/
noncomputable def reducedOpt (d_ls d_s : ℝ) (a : ℝ × ℝ) : Option (ℝ × ℝ) := do
  let k ← divOpt d_ls d_s
  pure (k * a.1, k * a.2)

/-- `EnclosedMass.reduced_deflection_angle`: lenses/enclosed_mass.py:167-178 with
lenses/func/enclosed_mass.py:53-58. -/
noncomputable def enclosedDeflectionOpt (Gc2 x0 y0 q phi d_ls d_s : ℝ) (M : ℝ → ℝ) (s x y : ℝ) :
    Option (ℝ × ℝ) := do
  let p := translateRotate x y x0 y0 (some phi)
  let r := (← sqrtOpt ((← divOpt (p.1 ^ 2) q) + q * p.2 ^ 2)) + s
  let alpha ← divOpt (4 * Gc2 * M r) (r ^ 2)
  let ax ← divOpt (alpha * p.1) (q * r)
  let ay ← divOpt (alpha * p.2 * q) r
  reducedOpt d_ls d_s (derotate ax ay (some phi))

/-- lenses/func/nfw.py:6-41. -/
noncomputable def nfwScaleRadiusOpt (rhoc mass c Delta : ℝ) : Option ℝ := do
  let v ← divOpt (3 * mass) (4 * π * Delta * rhoc)
  divOpt (← powOpt v (1 / 3)) c

/-- lenses/func/nfw.py:44-74. -/
noncomputable def nfwScaleDensityOpt (rhoc c Delta : ℝ) : Option ℝ := do
  let l ← logOpt (1 + c)
  let v ← divOpt c (1 + c)
  divOpt (Delta / 3 * rhoc * c ^ 3) (l - v)

/-- lenses/func/nfw.py:172-197; `where` discards the branch that is not selected. -/
noncomputable def nfwHOpt (x : ℝ) : Option ℝ := do
  let t ← logOpt (x / 2)
  let xg := max x (1 + 1e-6)
  let xl := min x (1 - 1e-6)
  let u ←
    if x > 1 then do
      let a ← acosOpt (← divOpt 1 xg)
      divOpt a (← sqrtOpt (xg ^ 2 - 1))
    else if x < 1 then do
      let a ← acoshOpt (← divOpt 1 xl)
      divOpt a (← sqrtOpt (1 - xl ^ 2))
    else some 1
  pure (t + u)

/-- `NFW.reduced_deflection_angle`: lenses/nfw.py:275-288 with lenses/func/nfw.py:254-264. -/
noncomputable def NFW.deflectionOpt (L : NFW) (x y : ℝ) : Option (ℝ × ℝ) := do
  let p := translateRotate x y L.x0 L.y0 none
  let th := (← sqrtOpt (p.1 ^ 2 + p.2 ^ 2)) + L.s
  let rs ← nfwScaleRadiusOpt L.rhoc L.mass L.c L.Delta
  let xi := L.d_l * th * arcsecToRad
  let r ← divOpt xi rs
  let ds ← nfwScaleDensityOpt L.rhoc L.c L.Delta
  let h ← nfwHOpt r
  let a ← divOpt (16 * π * L.Gc2 * ds * rs ^ 3 * h * radToArcsec) xi
  let ax ← divOpt (a * p.1) th
  let ay ← divOpt (a * p.2) th
  reducedOpt L.d_ls L.d_s (ax, ay)

/-- `reduced_deflection_angle_pseudo_jaffe`, lenses/func/pseudo_jaffe.py:85-150. -/
noncomputable def PJaffe.deflectionOpt (L : PJaffe) (x y : ℝ) : Option (ℝ × ℝ) := do
  let p := translateRotate x y L.x0 L.y0 none
  let R := (← sqrtOpt (p.1 ^ 2 + p.2 ^ 2)) + L.s
  let u ← divOpt R L.Rc
  let v ← divOpt R L.Rs
  let f1 ← divOpt u (1 + (← sqrtOpt (1 + u ^ 2)))
  let f2 ← divOpt R (L.Rs * (1 + (← sqrtOpt (1 + v ^ 2))))
  let k ← divOpt L.mass (2 * π * L.sigmacr * L.Rc * L.Rs * (L.d_l * arcsecToRad) ^ 2)
  let c ← divOpt (2 * k * L.Rc * L.Rs) (L.Rs - L.Rc)
  let alpha := c * (f1 - f2)
  let ax ← divOpt (alpha * p.1) R
  let ay ← divOpt (alpha * p.2) R
  pure (ax, ay)

/-- `PseudoJaffe.reduced_deflection_angle`: lenses/pseudo_jaffe.py:286-288.  The call leaves out the
softening of the class (lenses/pseudo_jaffe.py:163), so the functional default 0.0 applies. -/
noncomputable def PJaffe.classDeflectionOpt (L : PJaffe) (x y : ℝ) : Option (ℝ × ℝ) :=
  { L with s := 0 }.deflectionOpt x y

/-- lenses/func/tnfw.py:49-65; `where` discards the branches that are not selected. -/
noncomputable def tnfwFOpt (x : ℝ) : Option ℝ :=
  let xg := max x (1 + 1e-3)
  let xl := min x (1 - 1e-3)
  if x < 1 - 1e-2 then do
    let a ← acoshOpt (← divOpt 1 xl)
    divOpt a (← sqrtOpt (1 - xl ^ 2))
  else if x > 1 + 1e-2 then do
    let a ← acosOpt (← divOpt 1 xg)
    divOpt a (← sqrtOpt (xg ^ 2 - 1))
  else some (1 - 2 * (x - 1) / 3 + 7 * (x - 1) ^ 2 / 15)

/-- lenses/func/tnfw.py:119-168 with 68-72. -/
noncomputable def tnfwMassEnclosedOpt (r Rs tau M0 : ℝ) : Option ℝ := do
  let g ← divOpt r Rs
  let t2 := tau ^ 2
  let F ← tnfwFOpt g
  let Lg ← logOpt (← divOpt g (tau + (← sqrtOpt (t2 + g ^ 2))))
  let a1 ← divOpt t2 ((t2 + 1) ^ 2)
  let a2 := (t2 + 1 + 2 * (g ^ 2 - 1)) * F
  let a3 := tau * π
  let a4 := (t2 - 1) * (← logOpt tau)
  let a5 := (← sqrtOpt (t2 + g ^ 2)) * (-π + (← divOpt ((t2 - 1) * Lg) tau))
  pure (M0 * a1 * (a2 + a3 + a4 + a5))

/-- `TNFW.reduced_deflection_angle`: lenses/tnfw.py:412-425 with lenses/func/tnfw.py:235-244. -/
noncomputable def TNFW.deflectionOpt (L : TNFW) (x y : ℝ) : Option (ℝ × ℝ) := do
  let p := translateRotate x y L.x0 L.y0 none
  let r := (← sqrtOpt (p.1 ^ 2 + p.2 ^ 2)) + L.s
  let theta := arctan2 p.2 p.1
  let m ← tnfwMassEnclosedOpt r L.Rs L.tau L.M0
  let dr ← divOpt m (r * L.d_l * arcsecToRad)
  let S := 4 * L.Gc2 * radToArcsec
  reducedOpt L.d_ls L.d_s (S * dr * cos theta, S * dr * sin theta)

/-- `EPL.reduced_deflection_angle`: lenses/epl.py:254-256.  The call leaves out the softening of the
class (lenses/epl.py:209), which only the convergence uses (lenses/epl.py:332). -/
noncomputable def eplClassDeflectionOpt (x0 y0 q phi Rein t : ℝ) (n_iter : ℕ)
    (chunk_size : Option ℕ) (_s : ℝ) (x y : ℝ) : Option (ℝ × ℝ) :=
  (eplDeflection x0 y0 q phi Rein t n_iter chunk_size x y).toOption

end Caustics
