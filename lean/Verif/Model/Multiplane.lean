import Mathlib.Data.List.Sort
import Mathlib.Algebra.Order.Field.Basic

/-!
`lenses/multiplane.py` (class `Multiplane`) and the pieces of `lenses/base.py`,
`lenses/func/base.py` and `cosmology/base.py` it is compared with.

`K` is any linearly ordered field.  Exceptions are `none`.
-/

namespace Caustics

/-- One lens of a multiplane system as the ray tracer sees it: its redshift, its
`physical_deflection_angle` and its `potential` (arguments and deflections in arcsec). -/
structure MPlane (K : Type) where
  z : K
  alpha : K → K → K × K
  psi : K → K → K

/-- What the ray tracer takes from its surroundings: `transverse_comoving_distance`
(cosmology/base.py:94-113), `rad_to_arcsec` (constants.py:19; `arcsec_to_rad` is its inverse,
constants.py:20), `c_Mpc_s` and `days_to_seconds` (constants.py:28,30). -/
structure MPEnv (K : Type) where
  dist : K → K
  radToArcsec : K
  cMpcS : K
  daysToSeconds : K

variable {K : Type} [Field K] [LinearOrder K]

/-- constants.py:20. -/
def MPEnv.arcsecToRad (e : MPEnv K) : K := 1 / e.radToArcsec

/-- cosmology/base.py:143-171 `transverse_comoving_distance_z1z2`. -/
def MPEnv.dist12 (e : MPEnv K) (z1 z2 : K) : K := e.dist z2 - e.dist z1

/-- multiplane.py:78 `[i for i, _ in sorted(enumerate(z_ls), key=itemgetter(1))]` (stable). -/
def lensPlanes (zs : List K) : List Nat :=
  (zs.zipIdx.insertionSort fun p q => p.1 ≤ q.1).map Prod.snd

/-- The loop variables `X, Y, theta_x, theta_y, TD` of multiplane.py:83-117. -/
structure MPState (K : Type) where
  X : K
  Y : K
  thx : K
  thy : K
  td : K

/-- The body of the loop, multiplane.py:93-117, once `z_l = z_ls[i]`, `z_next` and the lens
have been looked up.  Division by a zero distance gives `0` here instead of inf/nan. -/
def mpBody (e : MPEnv K) (zs : K) (shapiro geometric : Bool) (l : MPlane K) (zNext : K)
    (s : MPState K) : MPState K :=
  let dS := e.dist zs
  let dL := e.dist l.z
  let d := e.dist12 l.z zNext
  let dIs := e.dist12 l.z zs
  let dNext := e.dist zNext
  let px := s.X * e.radToArcsec / dL
  let py := s.Y * e.radToArcsec / dL
  let al := l.alpha px py
  let thx := s.thx - al.1
  let thy := s.thy - al.2
  let tau := (1 + l.z) * dL * dNext / (d * e.cMpcS) / e.daysToSeconds
  let beta := d * dS / (dNext * dIs)
  let td1 := if shapiro then s.td + (-tau * beta * e.arcsecToRad ^ 2) * l.psi px py else s.td
  let td2 := if geometric then
      td1 + (tau * e.arcsecToRad ^ 2 * (1 / 2)) * (al.1 ^ 2 + al.2 ^ 2) else td1
  { X := s.X + d * thx * e.arcsecToRad
    Y := s.Y + d * thy * e.arcsecToRad
    thx := thx
    thy := thy
    td := td2 }

/-- multiplane.py:92-117 `for i in lens_planes`, with
`z_next = z_ls[i + 1] if i != lens_planes[-1] else z_s`; an index out of range is `none`. -/
def mpLoop (e : MPEnv K) (zs : K) (shapiro geometric : Bool) (lenses : List (MPlane K))
    (last : Nat) : List Nat → MPState K → Option (MPState K)
  | [], s => some s
  | i :: is, s =>
    match lenses[i]?, (if i ≠ last then (lenses.map MPlane.z)[i + 1]? else some zs) with
    | some l, some zNext =>
      mpLoop e zs shapiro geometric lenses last is (mpBody e zs shapiro geometric l zNext s)
    | _, _ => none

/-- multiplane.py:66-132 `_raytrace_helper`: the end position (arcsec) and the time delay
(days).  An empty lens list is `none` (`lens_planes[0]` raises IndexError). -/
def mpHelper (e : MPEnv K) (zs : K) (shapiro geometric : Bool) (lenses : List (MPlane K))
    (x y : K) : Option ((K × K) × K) :=
  let order := lensPlanes (lenses.map MPlane.z)
  match order.head?, order.getLast? with
  | some i0, some last =>
    match (lenses.map MPlane.z)[i0]? with
    | some z0 =>
      let d := e.dist z0
      let s0 : MPState K :=
        { X := x * e.arcsecToRad * d, Y := y * e.arcsecToRad * d, thx := x, thy := y, td := 0 }
      match mpLoop e zs shapiro geometric lenses last order s0 with
      | some s =>
        some ((s.X * e.radToArcsec / e.dist zs, s.Y * e.radToArcsec / e.dist zs), s.td)
      | none => none
    | none => none
  | _, _ => none

/-- multiplane.py:135-200 `raytrace`. -/
def mpRaytrace (e : MPEnv K) (zs : K) (lenses : List (MPlane K)) (x y : K) : Option (K × K) :=
  (mpHelper e zs false false lenses x y).map Prod.fst

/-- multiplane.py:203-209 `effective_reduced_deflection_angle`. -/
def mpEffectiveDeflection (e : MPEnv K) (zs : K) (lenses : List (MPlane K)) (x y : K) :
    Option (K × K) :=
  (mpRaytrace e zs lenses x y).map fun b => (x - b.1, y - b.2)

/-- multiplane.py:250-312 `time_delay`; with both contributions switched off the helper
raises ValueError (multiplane.py:129-132). -/
def mpTimeDelay (e : MPEnv K) (zs : K) (shapiro geometric : Bool) (lenses : List (MPlane K))
    (x y : K) : Option K :=
  if shapiro || geometric then (mpHelper e zs shapiro geometric lenses x y).map Prod.snd
  else none

/-! ### The thin lens it is compared with -/

/-- func/base.py:247-286 `physical_from_reduced_deflection_angle`. -/
def physicalFromReduced (a : K × K) (dS dLs : K) : K × K := ((dS / dLs) * a.1, (dS / dLs) * a.2)

/-- func/base.py:289-330 `reduced_from_physical_deflection_angle`. -/
def reducedFromPhysical (a : K × K) (dS dLs : K) : K × K := ((dLs / dS) * a.1, (dLs / dS) * a.2)

/-- cosmology/base.py:174-193 `angular_diameter_distance`, for a flat cosmology
(`comoving_distance = transverse_comoving_distance`, FlatLambdaCDM.py:182-184). -/
def MPEnv.angDist (e : MPEnv K) (z : K) : K := e.dist z / (1 + z)

/-- cosmology/base.py:196-220 `angular_diameter_distance_z1z2`. -/
def MPEnv.angDist12 (e : MPEnv K) (z1 z2 : K) : K := (e.dist z2 - e.dist z1) / (1 + z2)

/-- func/base.py:333-339 `time_delay_arcsec2_to_days`. -/
def MPEnv.arcsec2ToDays (e : MPEnv K) (dL dS dLs zL : K) : K :=
  (1 + zL) / e.cMpcS * dS * dL / dLs * e.arcsecToRad ^ 2 / e.daysToSeconds

/-- A thin lens given by its redshift, reduced deflection and potential. -/
structure ThinLensFn (K : Type) where
  z : K
  reduced : K → K → K × K
  psi : K → K → K

/-- lenses/base.py:670-710 `physical_deflection_angle` of a thin lens. -/
def ThinLensFn.physical (e : MPEnv K) (zs : K) (l : ThinLensFn K) (x y : K) : K × K :=
  physicalFromReduced (l.reduced x y) (e.angDist zs) (e.angDist12 l.z zs)

/-- The thin lens as a member of a multiplane system (same source redshift,
multiplane.py:50). -/
def ThinLensFn.plane (e : MPEnv K) (zs : K) (l : ThinLensFn K) : MPlane K where
  z := l.z
  alpha := l.physical e zs
  psi := l.psi

/-- lenses/base.py:827-863 `raytrace` of a thin lens. -/
def ThinLensFn.raytrace (l : ThinLensFn K) (x y : K) : K × K :=
  (x - (l.reduced x y).1, y - (l.reduced x y).2)

/-- lenses/base.py:879-944 `time_delay` of a thin lens (866-876 for the factor). -/
def ThinLensFn.timeDelay (e : MPEnv K) (zs : K) (shapiro geometric : Bool) (l : ThinLensFn K)
    (x y : K) : K :=
  let td0 : K := 0
  let td1 := if shapiro then td0 - l.psi x y else td0
  let td2 := if geometric then
    td1 + (1 / 2) * ((l.reduced x y).1 ^ 2 + (l.reduced x y).2 ^ 2) else td1
  e.arcsec2ToDays (e.angDist l.z) (e.angDist zs) (e.angDist12 l.z zs) l.z * td2

end Caustics
