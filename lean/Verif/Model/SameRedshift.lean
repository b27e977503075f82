import Verif.Model.Flt
import Verif.Model.Lenses
import Verif.Model.Cosmology

/-!
Lenses given by their mass, as functions of the redshifts of lens and source, evaluated with floating point numbers
(`Model/Flt.lean`) so that redshifts at which a distance vanishes are included: `z_l = 0` and `z_s = z_l`.

Simplification: the scale radius and scale density of an NFW halo, and the critical density at the lens, are numbers.  The
parameters of the lenses are the ordinary ones; their own ends are the subject of `Model/RangeNan.lean` and
`Model/PJaffeEnds.lean`.
-/

open Real

namespace Caustics

open Flt (fin)

namespace Flt

noncomputable def atan : Flt → Flt
  | .fin a => .fin (arctan a)
  | .pinf => .fin (π / 2)
  | .ninf => .fin (-(π / 2))
  | .nan => .nan

noncomputable def atanh : Flt → Flt
  | .fin a => if |a| < 1 then .fin (artanh a) else if a = 1 then .pinf else if a = -1 then .ninf else .nan
  | _ => .nan

end Flt

/-- cosmology/base.py:257-288 `critical_surface_density`. -/
noncomputable def Cosmo.sigmaCrFlt (C : Cosmo) (zl zs : ℝ) : Flt :=
  fin (C.angular zs) / fin (4 * π * C.GOverC2 * C.angular zl * C.angular12 zl zs)

/-- lenses/func/base.py:247-287. -/
noncomputable def physicalFromReducedFlt (a : Flt × Flt) (d_s d_ls : ℝ) : Flt × Flt :=
  (fin d_s / fin d_ls * a.1, fin d_s / fin d_ls * a.2)

/-- lenses/func/base.py:290-330. -/
noncomputable def reducedFromPhysicalFlt (a : Flt × Flt) (d_s d_ls : ℝ) : Flt × Flt :=
  (fin d_ls / fin d_s * a.1, fin d_ls / fin d_s * a.2)

/-- lenses/base.py:826-863 `ThinLens.raytrace`. -/
noncomputable def raytraceFlt (a : Flt × Flt) (x y : ℝ) : Flt × Flt := (fin x - a.1, fin y - a.2)

/-- lenses/base.py:792-824 `ThinLens.surface_density`. -/
noncomputable def surfaceDensityFlt (C : Cosmo) (zl zs : ℝ) (kappa : Flt) : Flt := kappa * C.sigmaCrFlt zl zs

/-- lenses/base.py:865-876 with lenses/func/base.py:333-339; `c` is `c_Mpc_s`, `day` is `days_to_seconds`. -/
noncomputable def arcsec2ToDaysFlt (C : Cosmo) (c day zl zs : ℝ) : Flt :=
  fin (1 + zl) / fin c * fin (C.angular zs) * fin (C.angular zl) / fin (C.angular12 zl zs) * fin (arcsecToRad ^ 2) / fin day

/-- lenses/base.py:878-944 `ThinLens.time_delay`. -/
noncomputable def thinDelayFlt (C : Cosmo) (c day zl zs : ℝ) (shapiro geometric : Bool) (psi : Flt) (a : Flt × Flt) : Flt :=
  let TD := fin 0
  let TD := if shapiro then TD - psi else TD
  let TD := if geometric then TD + fin 0.5 * (Flt.sq a.1 + Flt.sq a.2) else TD
  arcsec2ToDaysFlt C c day zl zs * TD

/-! ### Point mass -/

/-- A `Point` in the parametrization `mass` (lenses/point.py:132-175). -/
structure PointMass where
  x0 : ℝ
  y0 : ℝ
  mass : ℝ
  s : ℝ

namespace PointMass

/-- lenses/func/point.py:152-186. -/
noncomputable def rein (P : PointMass) (C : Cosmo) (zl zs : ℝ) : Flt :=
  fin radToArcsec * Flt.sqrt (fin (4 * C.GOverC2 * P.mass * C.angular12 zl zs) / fin (C.angular zl * C.angular zs))

/-- lenses/func/point.py:57. -/
noncomputable def th (P : PointMass) (x y : ℝ) : ℝ := √((x - P.x0) ^ 2 + (y - P.y0) ^ 2) + P.s

/-- lenses/func/point.py:6-60. -/
noncomputable def reducedFlt (P : PointMass) (C : Cosmo) (zl zs x y : ℝ) : Flt × Flt :=
  let R2 := Flt.sq (P.rein C zl zs)
  (fin (x - P.x0) * R2 / Flt.sq (fin (P.th x y)), fin (y - P.y0) * R2 / Flt.sq (fin (P.th x y)))

/-- lenses/func/point.py:63-110. -/
noncomputable def potentialFlt (P : PointMass) (C : Cosmo) (zl zs x y : ℝ) : Flt :=
  Flt.sq (P.rein C zl zs) * Flt.log (fin (P.th x y))

/-- lenses/base.py:669-710. -/
noncomputable def physicalFlt (P : PointMass) (C : Cosmo) (zl zs x y : ℝ) : Flt × Flt :=
  physicalFromReducedFlt (P.reducedFlt C zl zs x y) (C.angular zs) (C.angular12 zl zs)

end PointMass

/-! ### Pseudo-Jaffe -/

/-- The parameters of a `PseudoJaffe`. -/
structure PJPar where
  x0 : ℝ
  y0 : ℝ
  mass : ℝ
  Rc : ℝ
  Rs : ℝ

namespace PJPar

/-- lenses/func/pseudo_jaffe.py:6-47. -/
noncomputable def kappa0 (P : PJPar) (d_l : ℝ) (sigmacr : Flt) : Flt :=
  fin P.mass / (fin (2 * π) * sigmacr * fin P.Rc * fin P.Rs * fin ((d_l * arcsecToRad) ^ 2))

/-- lenses/pseudo_jaffe.py:286-288 with lenses/func/pseudo_jaffe.py:85-150; the class does not pass on its softening. -/
noncomputable def reducedFlt (P : PJPar) (C : Cosmo) (zl zs x y : ℝ) : Flt × Flt :=
  let X := x - P.x0
  let Y := y - P.y0
  let R := √(X ^ 2 + Y ^ 2)
  let f := R / P.Rc / (1 + √(1 + (R / P.Rc) ^ 2)) - R / (P.Rs * (1 + √(1 + (R / P.Rs) ^ 2)))
  let alpha := fin 2 * P.kappa0 (C.angular zl) (C.sigmaCrFlt zl zs) * fin P.Rc * fin P.Rs / fin (P.Rs - P.Rc) * fin f
  (alpha * fin X / fin R, alpha * fin Y / fin R)

/-- lenses/pseudo_jaffe.py:369-373 with lenses/func/pseudo_jaffe.py:241-303. -/
noncomputable def convergenceFlt (P : PJPar) (C : Cosmo) (zl zs x y : ℝ) : Flt :=
  let R2 := (x - P.x0) ^ 2 + (y - P.y0) ^ 2
  let coeff := P.kappa0 (C.angular zl) (C.sigmaCrFlt zl zs) * fin P.Rc * fin P.Rs / fin (P.Rs - P.Rc)
  coeff * fin (1 / √(P.Rc ^ 2 + R2) - 1 / √(P.Rs ^ 2 + R2))

/-- lenses/pseudo_jaffe.py:327-331 with lenses/func/pseudo_jaffe.py:153-238. -/
noncomputable def potentialFlt (P : PJPar) (C : Cosmo) (zl zs x y : ℝ) : Flt :=
  let R2 := (x - P.x0) ^ 2 + (y - P.y0) ^ 2
  let sd0 := P.kappa0 (C.angular zl) (fin 1)
  let coeff := -(fin (8 * π * C.GOverC2) * sd0 * (fin (C.angular zl * C.angular12 zl zs) / fin (C.angular zs))
    * fin P.Rc * fin P.Rs / fin (P.Rs - P.Rc))
  coeff * fin (√(P.Rs ^ 2 + R2) - √(P.Rc ^ 2 + R2) + P.Rc * log (P.Rc + √(P.Rc ^ 2 + R2))
    - P.Rs * log (P.Rs + √(P.Rs ^ 2 + R2)))

/-- lenses/base.py:669-710. -/
noncomputable def physicalFlt (P : PJPar) (C : Cosmo) (zl zs x y : ℝ) : Flt × Flt :=
  physicalFromReducedFlt (P.reducedFlt C zl zs x y) (C.angular zs) (C.angular12 zl zs)

/-- The same lens in the notation of `Model/Lenses.lean`. -/
noncomputable def toLens (P : PJPar) (C : Cosmo) (zl zs : ℝ) : PJaffe where
  Gc2 := C.GOverC2
  x0 := P.x0
  y0 := P.y0
  mass := P.mass
  Rc := P.Rc
  Rs := P.Rs
  d_l := C.angular zl
  d_s := C.angular zs
  d_ls := C.angular12 zl zs
  sigmacr := C.criticalSurfaceDensity zl zs
  s := 0

end PJPar

/-! ### NFW -/

open Classical in
/-- lenses/func/nfw.py:118-141. -/
noncomputable def nfwFFlt (x : Flt) : Flt :=
  let xg := Flt.clampMin (1 + 1e-6) x
  let xl := Flt.clampMax (1 - 1e-6) x
  if x.gtc 1 then fin 1 - fin 2 * Flt.atan (Flt.sqrt ((xg - fin 1) / (xg + fin 1))) / Flt.sqrt (Flt.sq xg - fin 1)
  else if x.ltc 1 then fin 1 - fin 2 * Flt.atanh (Flt.sqrt ((fin 1 - xl) / (fin 1 + xl))) / Flt.sqrt (fin 1 - Flt.sq xl)
  else fin 0

open Classical in
/-- lenses/func/nfw.py:144-169. -/
noncomputable def nfwGFlt (x : Flt) : Flt :=
  let xg := Flt.clampMin (1 + 1e-6) x
  let xl := Flt.clampMax (1 - 1e-6) x
  Flt.sq (Flt.log (x / fin 2)) +
    if x.gtc 1 then Flt.sq (Flt.arccos (fin 1 / xg)) else if x.ltc 1 then -Flt.sq (Flt.arccosh (fin 1 / xl)) else fin 0

open Classical in
/-- lenses/func/nfw.py:172-197. -/
noncomputable def nfwHFlt (x : Flt) : Flt :=
  let xg := Flt.clampMin (1 + 1e-6) x
  let xl := Flt.clampMax (1 - 1e-6) x
  Flt.log (x / fin 2) +
    if x.gtc 1 then Flt.arccos (fin 1 / xg) / Flt.sqrt (Flt.sq xg - fin 1)
    else if x.ltc 1 then Flt.arccosh (fin 1 / xl) / Flt.sqrt (fin 1 - Flt.sq xl) else fin 1

/-- The parameters of an `NFW` lens and the critical density at its redshift. -/
structure NFWPar where
  x0 : ℝ
  y0 : ℝ
  mass : ℝ
  c : ℝ
  Delta : ℝ
  rhoc : ℝ
  s : ℝ

namespace NFWPar

noncomputable def rs (P : NFWPar) : ℝ := nfwScaleRadius P.rhoc P.mass P.c P.Delta
noncomputable def rhos (P : NFWPar) : ℝ := nfwScaleDensity P.rhoc P.c P.Delta

/-- lenses/func/nfw.py:255. -/
noncomputable def th (P : NFWPar) (x y : ℝ) : ℝ := √((x - P.x0) ^ 2 + (y - P.y0) ^ 2) + P.s

/-- lenses/func/nfw.py:257-258 `xi`. -/
noncomputable def xi (P : NFWPar) (C : Cosmo) (zl x y : ℝ) : ℝ := C.angular zl * P.th x y * arcsecToRad

/-- lenses/nfw.py:275-279 with lenses/func/nfw.py:200-264. -/
noncomputable def physicalFlt (P : NFWPar) (C : Cosmo) (zl x y : ℝ) : Flt × Flt :=
  let xi := P.xi C zl x y
  let r := fin xi / fin P.rs
  let a := fin (16 * π * C.GOverC2 * P.rhos * P.rs ^ 3) * nfwHFlt r * fin radToArcsec / fin xi
  (a * fin (x - P.x0) / fin (P.th x y), a * fin (y - P.y0) / fin (P.th x y))

/-- lenses/nfw.py:281-288. -/
noncomputable def reducedFlt (P : NFWPar) (C : Cosmo) (zl zs x y : ℝ) : Flt × Flt :=
  reducedFromPhysicalFlt (P.physicalFlt C zl x y) (C.angular zs) (C.angular12 zl zs)

/-- lenses/func/nfw.py:77-115. -/
noncomputable def kappaS (P : NFWPar) (C : Cosmo) (zl zs : ℝ) : Flt := fin (P.rs * P.rhos) / C.sigmaCrFlt zl zs

/-- lenses/nfw.py:325-340 with lenses/func/nfw.py:319-327. -/
noncomputable def convergenceFlt (P : NFWPar) (C : Cosmo) (zl zs x y : ℝ) : Flt :=
  let r := fin (P.xi C zl x y) / fin P.rs
  fin 2 * P.kappaS C zl zs * nfwFFlt r / (Flt.sq r - fin 1)

/-- lenses/nfw.py:377-392 with lenses/func/nfw.py:382-390. -/
noncomputable def potentialFlt (P : NFWPar) (C : Cosmo) (zl zs x y : ℝ) : Flt :=
  let r := fin (P.xi C zl x y) / fin P.rs
  fin 2 * P.kappaS C zl zs * nfwGFlt r * fin (P.rs ^ 2) / fin (C.angular zl ^ 2 * arcsecToRad ^ 2)

/-- The same lens in the notation of `Model/Lenses.lean`. -/
noncomputable def toLens (P : NFWPar) (C : Cosmo) (zl zs : ℝ) : NFW where
  Gc2 := C.GOverC2
  x0 := P.x0
  y0 := P.y0
  mass := P.mass
  c := P.c
  Delta := P.Delta
  rhoc := P.rhoc
  d_l := C.angular zl
  d_s := C.angular zs
  d_ls := C.angular12 zl zs
  sigmacr := C.criticalSurfaceDensity zl zs
  s := P.s

end NFWPar

end Caustics
