import Verif.Model.Multiplane

/-!
`lenses/multiplane.py` again, with the divisions by zero.  A number is `some`; inf and nan are `none`, and what is
computed from `none` is `none`.  An exception is `none` outside.

Simplification: the two components of a deflection, and with them the four loop variables that describe the ray, are
either all numbers or not.
-/

namespace Caustics

variable {K : Type} [Field K] [LinearOrder K]

/-- `a / b`. -/
def quo (a b : K) : Option K := if b = 0 then none else some (a / b)

/-- A lens as the ray tracer sees it. -/
structure MPlaneO (K : Type) where
  z : K
  alpha : K → K → Option (K × K)
  psi : K → K → Option K

/-- The loop variables `X, Y, theta_x, theta_y` of multiplane.py:80-85. -/
structure MPRay (K : Type) where
  X : K
  Y : K
  thx : K
  thy : K

/-- All loop variables: the ray and `TD`. -/
structure MPStateO (K : Type) where
  ray : Option (MPRay K)
  td : Option K

/-- multiplane.py:99-100, 112: the position in the plane of the lens. -/
def mpPosO (e : MPEnv K) (l : MPlaneO K) (r : MPRay K) : Option (K × K) := do
  let px ← quo (r.X * e.radToArcsec) (e.dist l.z)
  let py ← quo (r.Y * e.radToArcsec) (e.dist l.z)
  return (px, py)

/-- multiplane.py:94-105, 119-120. -/
def mpRayStepO (e : MPEnv K) (l : MPlaneO K) (zNext : K) (r : MPRay K) : Option (MPRay K) := do
  let p ← mpPosO e l r
  let al ← l.alpha p.1 p.2
  let d := e.dist12 l.z zNext
  let thx := r.thx - al.1
  let thy := r.thy - al.2
  return { X := r.X + d * thx * e.arcsecToRad, Y := r.Y + d * thy * e.arcsecToRad, thx := thx, thy := thy }

/-- multiplane.py:108. -/
def mpTauO (e : MPEnv K) (l : MPlaneO K) (zNext : K) : Option K := do
  let t ← quo ((1 + l.z) * e.dist l.z * e.dist zNext) (e.dist12 l.z zNext * e.cMpcS)
  quo t e.daysToSeconds

/-- multiplane.py:109-114. -/
def mpShapiroO (e : MPEnv K) (zs : K) (l : MPlaneO K) (zNext : K) (r : MPRay K) : Option K := do
  let tau ← mpTauO e l zNext
  let beta ← quo (e.dist12 l.z zNext * e.dist zs) (e.dist zNext * e.dist12 l.z zs)
  let p ← mpPosO e l r
  let psi ← l.psi p.1 p.2
  return (-tau * beta * e.arcsecToRad ^ 2) * psi

/-- multiplane.py:115-116. -/
def mpGeometricO (e : MPEnv K) (l : MPlaneO K) (zNext : K) (r : MPRay K) : Option K := do
  let tau ← mpTauO e l zNext
  let p ← mpPosO e l r
  let al ← l.alpha p.1 p.2
  return (tau * e.arcsecToRad ^ 2 * (1 / 2)) * (al.1 ^ 2 + al.2 ^ 2)

/-- `TD += ...` -/
def addO (a b : Option K) : Option K := do return (← a) + (← b)

/-- multiplane.py:93-120. -/
def mpBodyO (e : MPEnv K) (zs : K) (shapiro geometric : Bool) (l : MPlaneO K) (zNext : K) (s : MPStateO K) :
    MPStateO K :=
  let td1 := if shapiro then addO s.td (s.ray.bind (mpShapiroO e zs l zNext)) else s.td
  let td2 := if geometric then addO td1 (s.ray.bind (mpGeometricO e l zNext)) else td1
  { ray := s.ray.bind (mpRayStepO e l zNext), td := td2 }

/-- multiplane.py:91-120. -/
def mpLoopO (e : MPEnv K) (zs : K) (shapiro geometric : Bool) (lenses : List (MPlaneO K)) (last : ℕ) :
    List ℕ → MPStateO K → Option (MPStateO K)
  | [], s => some s
  | i :: is, s =>
    match lenses[i]?, (if i ≠ last then (lenses.map MPlaneO.z)[i + 1]? else some zs) with
    | some l, some zNext => mpLoopO e zs shapiro geometric lenses last is (mpBodyO e zs shapiro geometric l zNext s)
    | _, _ => none

/-- multiplane.py:66-132 `_raytrace_helper`: the position in the source plane and the time delay. -/
def mpHelperO (e : MPEnv K) (zs : K) (shapiro geometric : Bool) (lenses : List (MPlaneO K)) (x y : K) :
    Option (Option (K × K) × Option K) :=
  let order := lensPlanes (lenses.map MPlaneO.z)
  match order.head?, order.getLast? with
  | some i0, some last =>
    match (lenses.map MPlaneO.z)[i0]? with
    | some z0 =>
      let d := e.dist z0
      match mpLoopO e zs shapiro geometric lenses last order
          ⟨some { X := x * e.arcsecToRad * d, Y := y * e.arcsecToRad * d, thx := x, thy := y }, some 0⟩ with
      | some s =>
        some (s.ray.bind fun r => do
          return (← quo (r.X * e.radToArcsec) (e.dist zs), ← quo (r.Y * e.radToArcsec) (e.dist zs)), s.td)
      | none => none
    | none => none
  | _, _ => none

/-- multiplane.py:134-200 `raytrace`. -/
def mpRaytraceO (e : MPEnv K) (zs : K) (lenses : List (MPlaneO K)) (x y : K) : Option (Option (K × K)) :=
  (mpHelperO e zs false false lenses x y).map Prod.fst

/-- multiplane.py:250-312 `time_delay`. -/
def mpTimeDelayO (e : MPEnv K) (zs : K) (shapiro geometric : Bool) (lenses : List (MPlaneO K)) (x y : K) :
    Option (Option K) :=
  if shapiro || geometric then (mpHelperO e zs shapiro geometric lenses x y).map Prod.snd else none

/-! ### Thin lenses -/

/-- A thin lens by its redshift, reduced deflection and potential. -/
structure ThinLensO (K : Type) where
  z : K
  reduced : K → K → Option (K × K)
  psi : K → K → Option K

/-- lenses/base.py:670-710 with func/base.py:247-286: `(d_s / d_ls) * deflection_angle`. -/
def ThinLensO.physical (e : MPEnv K) (zs : K) (l : ThinLensO K) (x y : K) : Option (K × K) := do
  let w ← quo (e.angDist zs) (e.angDist12 l.z zs)
  let a ← l.reduced x y
  return (w * a.1, w * a.2)

/-- As a member of a multiplane system. -/
def ThinLensO.plane (e : MPEnv K) (zs : K) (l : ThinLensO K) : MPlaneO K := ⟨l.z, l.physical e zs, l.psi⟩

/-- lenses/singleplane.py:57-98 and 136-170: a `SinglePlane` at redshift `z`. -/
def singlePlaneO (z : K) (lenses : List (ThinLensO K)) : ThinLensO K where
  z := z
  reduced x y := lenses.foldlM (fun a l => do
    let c ← l.reduced x y
    return (a.1 + c.1, a.2 + c.2)) ((0, 0) : K × K)
  psi x y := lenses.foldlM (fun a l => do return a + (← l.psi x y)) (0 : K)

/-- lenses/base.py:866-944 `time_delay` of a thin lens. -/
def ThinLensO.timeDelay (e : MPEnv K) (zs : K) (shapiro geometric : Bool) (l : ThinLensO K) (x y : K) : Option K := do
  let td1 ← if shapiro then (l.psi x y).map fun p => 0 - p else some 0
  let td2 ← if geometric then (l.reduced x y).map fun a => td1 + (1 / 2) * (a.1 ^ 2 + a.2 ^ 2) else some td1
  let f ← quo ((1 + l.z) / e.cMpcS * e.angDist zs * e.angDist l.z) (e.angDist12 l.z zs)
  let g ← quo (f * e.arcsecToRad ^ 2) e.daysToSeconds
  return g * td2

end Caustics
