import Verif.Model.Coord
import Mathlib.Analysis.SpecialFunctions.Artanh
import Mathlib.Analysis.SpecialFunctions.Arcosh
import Mathlib.Analysis.SpecialFunctions.Trigonometric.Arctan
import Mathlib.Analysis.SpecialFunctions.Pow.Real

/-!
The analytic lens models: `src/caustics/lenses/func/*.py` (the lens classes pass their parameters
straight through; lens-class lines are cited where the class does more than that).

One position per call, floats are reals.  Where Python produces `nan` or `inf` by dividing by zero
or taking the logarithm of zero (at the lens centre) Lean returns an arbitrary real; every statement
about the models excludes those points.  `backend.atanh`, `arccosh`, `arccos` are Mathlib's inverse
functions and are only meaningful on their usual domains.
-/

open Real

namespace Caustics

/-- constants.py:19 `rad_to_arcsec`. -/
noncomputable def radToArcsec : ℝ := 180 / π * 60 ^ 2

/-- constants.py:20 `arcsec_to_rad`. -/
noncomputable def arcsecToRad : ℝ := 1 / radToArcsec

/-! ### Singular isothermal sphere (lenses/func/sis.py) -/

/-- lenses/func/sis.py:5-58. -/
noncomputable def sisDeflection (x0 y0 Rein s x y : ℝ) : ℝ × ℝ :=
  let p := translateRotate x y x0 y0 none
  let R := √(p.1 ^ 2 + p.2 ^ 2) + s
  (Rein * p.1 / R, Rein * p.2 / R)

/-- lenses/func/sis.py:61-107. -/
noncomputable def sisPotential (x0 y0 Rein s x y : ℝ) : ℝ :=
  let p := translateRotate x y x0 y0 none
  let R := √(p.1 ^ 2 + p.2 ^ 2) + s
  Rein * R

/-- lenses/func/sis.py:110-156. -/
noncomputable def sisConvergence (x0 y0 Rein s x y : ℝ) : ℝ :=
  let p := translateRotate x y x0 y0 none
  let R := √(p.1 ^ 2 + p.2 ^ 2) + s
  0.5 * Rein / R

/-! ### Point mass (lenses/func/point.py) -/

/-- lenses/func/point.py:6-60. -/
noncomputable def pointDeflection (x0 y0 Rein s x y : ℝ) : ℝ × ℝ :=
  let p := translateRotate x y x0 y0 none
  let th := √(p.1 ^ 2 + p.2 ^ 2) + s
  (p.1 * Rein ^ 2 / th ^ 2, p.2 * Rein ^ 2 / th ^ 2)

/-- lenses/func/point.py:63-110. -/
noncomputable def pointPotential (x0 y0 Rein s x y : ℝ) : ℝ :=
  let p := translateRotate x y x0 y0 none
  let th := √(p.1 ^ 2 + p.2 ^ 2) + s
  Rein ^ 2 * log th

open Classical in
/-- lenses/func/point.py:113-149; `none` is `inf`. -/
noncomputable def pointConvergence (x0 y0 x y : ℝ) : Option ℝ :=
  let p := translateRotate x y x0 y0 none
  if p.1 = 0 ∧ p.2 = 0 then none else some 0

/-- lenses/func/point.py:152-186; `Gc2` is `G_over_c2` (constants.py:27). -/
noncomputable def massToReinPoint (Gc2 M d_ls d_l d_s : ℝ) : ℝ :=
  radToArcsec * √(4 * Gc2 * M * d_ls / (d_l * d_s))

/-- lenses/func/point.py:189-223. -/
noncomputable def reinToMassPoint (Gc2 r d_ls d_l d_s : ℝ) : ℝ :=
  (r / radToArcsec) ^ 2 * d_l * d_s / (4 * Gc2 * d_ls)

/-! ### Mass sheet and external shear -/

/-- lenses/func/mass_sheet.py:5-52. -/
noncomputable def sheetDeflection (x0 y0 kappa x y : ℝ) : ℝ × ℝ :=
  let p := translateRotate x y x0 y0 none
  (p.1 * kappa, p.2 * kappa)

/-- lenses/func/mass_sheet.py:55-97. -/
noncomputable def sheetPotential (x0 y0 kappa x y : ℝ) : ℝ :=
  let p := translateRotate x y x0 y0 none
  kappa / 2 * (p.1 ^ 2 + p.2 ^ 2)

/-- lenses/func/mass_sheet.py:100-126. -/
noncomputable def sheetConvergence (kappa : ℝ) (_x _y : ℝ) : ℝ := kappa * 1

/-- lenses/func/external_shear.py:5-59. -/
noncomputable def shearDeflection (x0 y0 gamma1 gamma2 x y : ℝ) : ℝ × ℝ :=
  let p := translateRotate x y x0 y0 none
  (gamma1 * p.1 + gamma2 * p.2, gamma2 * p.1 - gamma1 * p.2)

/-- lenses/func/external_shear.py:62-108. -/
noncomputable def shearPotential (x0 y0 gamma1 gamma2 x y : ℝ) : ℝ :=
  let p := translateRotate x y x0 y0 none
  0.5 * gamma1 * (p.1 ^ 2 - p.2 ^ 2) + gamma2 * p.1 * p.2

/-- lenses/external_shear.py:247-280. -/
noncomputable def shearConvergence (_x _y : ℝ) : ℝ := 0

/-- lenses/func/external_shear.py:111-135. -/
noncomputable def gammaPhiToGamma1 (gamma phi : ℝ) : ℝ := gamma * cos (2 * phi)

/-- lenses/func/external_shear.py:138-162. -/
noncomputable def gammaPhiToGamma2 (gamma phi : ℝ) : ℝ := gamma * sin (2 * phi)

/-! ### Multipole (lenses/func/multipole.py) -/

/-- lenses/func/multipole.py:5-48. -/
noncomputable def multipoleDeflection {n : ℕ} (x0 y0 : ℝ) (m a phim : Fin n → ℝ) (x y : ℝ) : ℝ × ℝ :=
  let p := translateRotate x y x0 y0 none
  let phi := arctan2 p.2 p.1
  (∑ i, (cos phi * a i / (1 - m i ^ 2) * cos (m i * (phi - phim i))
      + sin phi * m i * a i / (1 - m i ^ 2) * sin (m i * (phi - phim i))),
   ∑ i, (sin phi * a i / (1 - m i ^ 2) * cos (m i * (phi - phim i))
      - cos phi * m i * a i / (1 - m i ^ 2) * sin (m i * (phi - phim i))))

/-- lenses/func/multipole.py:51-91. -/
noncomputable def multipolePotential {n : ℕ} (x0 y0 : ℝ) (m a phim : Fin n → ℝ) (x y : ℝ) : ℝ :=
  let p := translateRotate x y x0 y0 none
  let r := √(p.1 ^ 2 + p.2 ^ 2)
  let phi := arctan2 p.2 p.1
  ∑ i, r * a i / (1 - m i ^ 2) * cos (m i * (phi - phim i))

/-- lenses/func/multipole.py:94-134. -/
noncomputable def multipoleConvergence {n : ℕ} (x0 y0 : ℝ) (m a phim : Fin n → ℝ) (x y : ℝ) : ℝ :=
  let p := translateRotate x y x0 y0 none
  let r := √(p.1 ^ 2 + p.2 ^ 2)
  let phi := arctan2 p.2 p.1
  ∑ i, 1 / (2 * r) * a i * cos (m i * (phi - phim i))

/-! ### Enclosed mass (lenses/func/enclosed_mass.py) -/

/-- lenses/func/enclosed_mass.py:7-58. -/
noncomputable def enclosedDeflection (Gc2 x0 y0 q phi : ℝ) (M : ℝ → ℝ) (s x y : ℝ) : ℝ × ℝ :=
  let p := translateRotate x y x0 y0 (some phi)
  let r := √(p.1 ^ 2 / q + q * p.2 ^ 2) + s
  let alpha := 4 * Gc2 * M r / r ^ 2
  derotate (alpha * p.1 / (q * r)) (alpha * p.2 * q / r) (some phi)

/-- lenses/func/enclosed_mass.py:61-115; `backend.grad` is the derivative. -/
noncomputable def enclosedConvergence (x0 y0 q phi : ℝ) (M : ℝ → ℝ) (csd s x y : ℝ) : ℝ :=
  let p := translateRotate x y x0 y0 (some phi)
  let r := √(p.1 ^ 2 / q + q * p.2 ^ 2) + s
  0.5 * deriv M r / (r * π * csd)

/-! ### Singular isothermal ellipsoid (lenses/func/sie.py) -/

/-- lenses/func/sie.py:68: the axis ratio actually used by the deflection. -/
noncomputable def sieQ (q : ℝ) : ℝ := if q = 1 then q - 1e-6 else q

/-- lenses/func/sie.py:6-81. -/
noncomputable def sieDeflection (x0 y0 q phi Rein s x y : ℝ) : ℝ × ℝ :=
  let q := sieQ q
  let p := translateRotate x y x0 y0 (some phi)
  let f := √(1 - q ^ 2)
  let b := Rein * √q / f
  let psi := √(q ^ 2 * (p.1 ^ 2 + s ^ 2) + p.2 ^ 2)
  derotate (b * arctan (f * p.1 / (psi + s))) (b * artanh (f * p.2 / (psi + q ^ 2 * s))) (some phi)

/-- lenses/func/sie.py:84-157. -/
noncomputable def siePotential (x0 y0 q phi Rein s x y : ℝ) : ℝ :=
  let a := sieDeflection x0 y0 q phi Rein s x y
  let a := derotate a.1 a.2 (some (-phi))
  let p := translateRotate x y x0 y0 (some phi)
  let ms := max s 1e-6
  let bs := Rein * √q * s
  let psi := √(q ^ 2 * (p.1 ^ 2 + s ^ 2) + p.2 ^ 2)
  p.1 * a.1 + p.2 * a.2 - bs * log (√((psi + ms) ^ 2 + (1 - q ^ 2) * p.1 ^ 2))
    + bs * log ((1 + q) * ms)

/-- lenses/func/sie.py:160-217. -/
noncomputable def sieConvergence (x0 y0 q phi Rein s x y : ℝ) : ℝ :=
  let p := translateRotate x y x0 y0 (some phi)
  let psi := √(q ^ 2 * (p.1 ^ 2 + s ^ 2) + p.2 ^ 2)
  0.5 * √q * Rein / psi

/-- lenses/func/sie.py:220-250; `c` is `c_km_s`. -/
noncomputable def sigmaVToRein (c sigmaV dls ds : ℝ) : ℝ :=
  radToArcsec * 4 * π * (sigmaV / c) ^ 2 * dls / ds

/-! ### NFW (lenses/func/nfw.py) -/

/-- lenses/func/nfw.py:6-41. -/
noncomputable def nfwScaleRadius (rhoc mass c Delta : ℝ) : ℝ :=
  (3 * mass / (4 * π * Delta * rhoc)) ^ ((1 : ℝ) / 3) / c

/-- lenses/func/nfw.py:44-74. -/
noncomputable def nfwScaleDensity (rhoc c Delta : ℝ) : ℝ :=
  Delta / 3 * rhoc * c ^ 3 / (log (1 + c) - c / (1 + c))

/-- lenses/func/nfw.py:77-115. -/
noncomputable def nfwConvergenceS (sigmacr rhoc mass c Delta : ℝ) : ℝ :=
  nfwScaleRadius rhoc mass c Delta * nfwScaleDensity rhoc c Delta / sigmacr

/-- lenses/func/nfw.py:118-141. -/
noncomputable def nfwF (x : ℝ) : ℝ :=
  let xg := max x (1 + 1e-6)
  let xl := min x (1 - 1e-6)
  if x > 1 then 1 - 2 * arctan (√((xg - 1) / (xg + 1))) / √(xg ^ 2 - 1)
  else if x < 1 then 1 - 2 * artanh (√((1 - xl) / (1 + xl))) / √(1 - xl ^ 2)
  else 0

/-- lenses/func/nfw.py:144-169. -/
noncomputable def nfwG (x : ℝ) : ℝ :=
  let xg := max x (1 + 1e-6)
  let xl := min x (1 - 1e-6)
  log (x / 2) ^ 2 +
    if x > 1 then arccos (1 / xg) ^ 2 else if x < 1 then -arcosh (1 / xl) ^ 2 else 0

/-- lenses/func/nfw.py:172-197. -/
noncomputable def nfwH (x : ℝ) : ℝ :=
  let xg := max x (1 + 1e-6)
  let xl := min x (1 - 1e-6)
  log (x / 2) +
    if x > 1 then arccos (1 / xg) / √(xg ^ 2 - 1)
    else if x < 1 then arcosh (1 / xl) / √(1 - xl ^ 2) else 1

/-- The parameters of an NFW lens together with what its class takes from the cosmology:
`rhoc = critical_density(z_l)`, angular diameter distances to the lens, to the source and between
them, and `sigmacr = critical_surface_density(z_l, z_s)`. -/
structure NFW where
  Gc2 : ℝ
  x0 : ℝ
  y0 : ℝ
  mass : ℝ
  c : ℝ
  Delta : ℝ
  rhoc : ℝ
  d_l : ℝ
  d_s : ℝ
  d_ls : ℝ
  sigmacr : ℝ
  s : ℝ

/-- lenses/func/nfw.py:256: `scale_radius`. -/
noncomputable def NFW.rs (L : NFW) : ℝ := nfwScaleRadius L.rhoc L.mass L.c L.Delta

/-- lenses/func/nfw.py:200-264. -/
noncomputable def NFW.physicalDeflection (L : NFW) (x y : ℝ) : ℝ × ℝ :=
  let p := translateRotate x y L.x0 L.y0 none
  let th := √(p.1 ^ 2 + p.2 ^ 2) + L.s
  let xi := L.d_l * th * arcsecToRad
  let r := xi / L.rs
  let a := 16 * π * L.Gc2 * nfwScaleDensity L.rhoc L.c L.Delta * L.rs ^ 3 * nfwH r * radToArcsec / xi
  (a * p.1 / th, a * p.2 / th)

/-- lenses/nfw.py:281-288 with lenses/func/base.py:289-330. -/
noncomputable def NFW.deflection (L : NFW) (x y : ℝ) : ℝ × ℝ :=
  let a := L.physicalDeflection x y
  (L.d_ls / L.d_s * a.1, L.d_ls / L.d_s * a.2)

/-- Division whose result is used even when the divisor is zero: `none` is `nan` or `inf`. -/
noncomputable def divOpt (a b : ℝ) : Option ℝ := if b = 0 then none else some (a / b)

/-- lenses/func/nfw.py:267-327; `none` is `nan` (0/0 at the scale radius). -/
noncomputable def NFW.convergence (L : NFW) (x y : ℝ) : Option ℝ :=
  let p := translateRotate x y L.x0 L.y0 none
  let th := √(p.1 ^ 2 + p.2 ^ 2) + L.s
  let xi := L.d_l * th * arcsecToRad
  let r := xi / L.rs
  divOpt (2 * nfwConvergenceS L.sigmacr L.rhoc L.mass L.c L.Delta * nfwF r) (r ^ 2 - 1)

/-- lenses/func/nfw.py:330-390. -/
noncomputable def NFW.potential (L : NFW) (x y : ℝ) : ℝ :=
  let p := translateRotate x y L.x0 L.y0 none
  let th := √(p.1 ^ 2 + p.2 ^ 2) + L.s
  let xi := L.d_l * th * arcsecToRad
  let r := xi / L.rs
  2 * nfwConvergenceS L.sigmacr L.rhoc L.mass L.c L.Delta * nfwG r * L.rs ^ 2
    / (L.d_l ^ 2 * arcsecToRad ^ 2)

/-! ### Pseudo-Jaffe (lenses/func/pseudo_jaffe.py) -/

/-- lenses/func/pseudo_jaffe.py:6-47. -/
noncomputable def pjKappa0 (mass Rc Rs d_l sigmacr : ℝ) : ℝ :=
  mass / (2 * π * sigmacr * Rc * Rs * (d_l * arcsecToRad) ^ 2)

/-- lenses/func/pseudo_jaffe.py:50-82. -/
noncomputable def pjMassEnclosed (radius mass Rc Rs s : ℝ) : ℝ :=
  let theta := radius + s
  mass * (√(Rc ^ 2 + theta ^ 2) - Rc - √(Rs ^ 2 + theta ^ 2) + Rs) / (Rs - Rc)

/-- Parameters of a pseudo-Jaffe lens and its distances, as for `NFW`. -/
structure PJaffe where
  Gc2 : ℝ
  x0 : ℝ
  y0 : ℝ
  mass : ℝ
  Rc : ℝ
  Rs : ℝ
  d_l : ℝ
  d_s : ℝ
  d_ls : ℝ
  sigmacr : ℝ
  /-- The softening of the functional form; lenses/pseudo_jaffe.py:288, 331, 371 never pass the
  class's own `s`, so for the class this is 0. -/
  s : ℝ

/-- lenses/func/pseudo_jaffe.py:85-150. -/
noncomputable def PJaffe.deflection (L : PJaffe) (x y : ℝ) : ℝ × ℝ :=
  let p := translateRotate x y L.x0 L.y0 none
  let R := √(p.1 ^ 2 + p.2 ^ 2) + L.s
  let f := R / L.Rc / (1 + √(1 + (R / L.Rc) ^ 2)) - R / (L.Rs * (1 + √(1 + (R / L.Rs) ^ 2)))
  let alpha := 2 * pjKappa0 L.mass L.Rc L.Rs L.d_l L.sigmacr * L.Rc * L.Rs / (L.Rs - L.Rc) * f
  (alpha * p.1 / R, alpha * p.2 / R)

/-- lenses/func/pseudo_jaffe.py:153-238. -/
noncomputable def PJaffe.potential (L : PJaffe) (x y : ℝ) : ℝ :=
  let p := translateRotate x y L.x0 L.y0 none
  let R2 := p.1 ^ 2 + p.2 ^ 2 + L.s
  let sd0 := pjKappa0 L.mass L.Rc L.Rs L.d_l 1
  let coeff := -(8 * π * L.Gc2 * sd0 * (L.d_l * L.d_ls / L.d_s) * L.Rc * L.Rs / (L.Rs - L.Rc))
  coeff * (√(L.Rs ^ 2 + R2) - √(L.Rc ^ 2 + R2) + L.Rc * log (L.Rc + √(L.Rc ^ 2 + R2))
    - L.Rs * log (L.Rs + √(L.Rs ^ 2 + R2)))

/-- lenses/func/pseudo_jaffe.py:241-303. -/
noncomputable def PJaffe.convergence (L : PJaffe) (x y : ℝ) : ℝ :=
  let p := translateRotate x y L.x0 L.y0 none
  let R2 := p.1 ^ 2 + p.2 ^ 2 + L.s
  let coeff := pjKappa0 L.mass L.Rc L.Rs L.d_l L.sigmacr * L.Rc * L.Rs / (L.Rs - L.Rc)
  coeff * (1 / √(L.Rc ^ 2 + R2) - 1 / √(L.Rs ^ 2 + R2))

/-! ### Truncated NFW (lenses/func/tnfw.py) -/

/-- lenses/func/tnfw.py:49-65. -/
noncomputable def tnfwF (x : ℝ) : ℝ :=
  let xg := max x (1 + 1e-3)
  let xl := min x (1 - 1e-3)
  if x < 1 - 1e-2 then arcosh (1 / xl) / √(1 - xl ^ 2)
  else if x > 1 + 1e-2 then arccos (1 / xg) / √(xg ^ 2 - 1)
  else 1 - 2 * (x - 1) / 3 + 7 * (x - 1) ^ 2 / 15

/-- lenses/func/tnfw.py:68-72. -/
noncomputable def tnfwL (x tau : ℝ) : ℝ := log (x / (tau + √(tau ^ 2 + x ^ 2)))

/-- lenses/func/tnfw.py:119-168. -/
noncomputable def tnfwMassEnclosed (r Rs tau M0 : ℝ) : ℝ :=
  let g := r / Rs
  let t2 := tau ^ 2
  let F := tnfwF g
  let L := tnfwL g tau
  let a1 := t2 / (t2 + 1) ^ 2
  let a2 := (t2 + 1 + 2 * (g ^ 2 - 1)) * F
  let a3 := tau * π
  let a4 := (t2 - 1) * log tau
  let a5 := √(t2 + g ^ 2) * (-π + (t2 - 1) * L / tau)
  M0 * a1 * (a2 + a3 + a4 + a5)

/-- Parameters of a truncated NFW lens and its distances, as for `NFW`; `M0` is what
lenses/tnfw.py:235-262 computes from the mass. -/
structure TNFW where
  Gc2 : ℝ
  x0 : ℝ
  y0 : ℝ
  M0 : ℝ
  Rs : ℝ
  tau : ℝ
  d_l : ℝ
  d_s : ℝ
  d_ls : ℝ
  sigmacr : ℝ
  s : ℝ

/-- lenses/func/tnfw.py:171-244. -/
noncomputable def TNFW.physicalDeflection (L : TNFW) (x y : ℝ) : ℝ × ℝ :=
  let p := translateRotate x y L.x0 L.y0 none
  let r := √(p.1 ^ 2 + p.2 ^ 2) + L.s
  let theta := arctan2 p.2 p.1
  let dr := tnfwMassEnclosed r L.Rs L.tau L.M0 / (r * L.d_l * arcsecToRad)
  let S := 4 * L.Gc2 * radToArcsec
  (S * dr * cos theta, S * dr * sin theta)

/-- lenses/tnfw.py:418-425 with lenses/func/base.py:289-330. -/
noncomputable def TNFW.deflection (L : TNFW) (x y : ℝ) : ℝ × ℝ :=
  let a := L.physicalDeflection x y
  (L.d_ls / L.d_s * a.1, L.d_ls / L.d_s * a.2)

open Classical in
/-- lenses/func/tnfw.py:247-325 (`critical_density` is the critical surface density,
lenses/tnfw.py:326). -/
noncomputable def TNFW.convergence (L : TNFW) (x y : ℝ) : ℝ :=
  let p := translateRotate x y L.x0 L.y0 none
  let r := √(p.1 ^ 2 + p.2 ^ 2) + L.s
  let g := r / L.Rs
  let F := tnfwF g
  let Lg := tnfwL g L.tau
  let S := L.M0 / (2 * π * (L.Rs * L.d_l * arcsecToRad) ^ 2)
  let t2 := L.tau ^ 2
  let a1 := t2 / (t2 + 1) ^ 2
  let a2 := if g = 1 then (t2 + 1) / 3 else (t2 + 1) * (1 - F) / (g ^ 2 - 1)
  let a3 := 2 * F
  let a4 := -π / √(t2 + g ^ 2)
  let a5 := (t2 - 1) * Lg / (L.tau * √(t2 + g ^ 2))
  a1 * (a2 + a3 + a4 + a5) * S / L.sigmacr

/-- lenses/func/tnfw.py:328-344. -/
noncomputable def tnfwP (x : ℝ) : ℝ :=
  let xg := max x (1 + 1e-4)
  let xl := min x (1 - 1e-4)
  if x < 1 - 1e-3 then -arcosh (1 / xl) ^ 2
  else if x > 1 + 1e-3 then arccos (1 / xg) ^ 2
  else 2 * (x - 1) - 5 * (x - 1) ^ 2 / 3

/-- lenses/func/tnfw.py:347-441. -/
noncomputable def TNFW.potential (L : TNFW) (x y : ℝ) : ℝ :=
  let p := translateRotate x y L.x0 L.y0 none
  let r := √(p.1 ^ 2 + p.2 ^ 2) + L.s
  let g := r / L.Rs
  let tau := L.tau
  let t2 := tau ^ 2
  let u := g ^ 2
  let F := tnfwF g
  let Lg := tnfwL g tau
  let S := 2 * L.M0 * L.Gc2 * (L.d_ls / L.d_s) / (L.d_l * arcsecToRad ^ 2)
  let a1 := 1 / (t2 + 1) ^ 2
  let a2 := 2 * π * t2 * (tau - √(t2 + u) + tau * log (tau + √(t2 + u)))
  let a3 := 2 * (t2 - 1) * tau * √(t2 + u) * Lg
  let a4 := t2 * (t2 - 1) * Lg ^ 2
  let a5 := 4 * t2 * (u - 1) * F
  let a6 := t2 * (t2 - 1) * tnfwP g
  let a7 := t2 * ((t2 - 1) * log tau - t2 - 1) * log u
  let a8 := t2 * ((t2 - 1) * log tau * log (4 * tau) + 2 * log (tau / 2)
    - 2 * tau * (tau - π) * log (2 * tau))
  S * a1 * (a2 + a3 + a4 + a5 + a6 + a7 - a8)

end Caustics
