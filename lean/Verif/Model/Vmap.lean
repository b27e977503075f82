import Verif.Model.Plane
import Verif.Model.Jacobian
import Verif.Model.WCS

/-!
Evaluation over a batch of parameters: `torch.vmap(sim)(params)` and `jax.vmap(sim)(params)`, which
run the code once on values of which some carry the batch and some do not.

What the two libraries do inside `vmap` is taken from their documentation:
* a functional operation acts on each batch element, and its result carries the batch if one of its
  operands does;
* an in-place operation of torch (`a += v`, `a[i] = v`, hence `fill_at_indices`, backend_obj.py:444-446)
  raises RuntimeError when `v` carries the batch and `a` does not; on jax `a += v` is `a = a + v` and
  `fill_at_indices` is `a.at[i].set(v)` (backend_obj.py:448-450), both functional;
* a branch on a value that carries the batch (here: the comparisons of `sorted`) raises, in both.
-/

namespace Caustics

/-- A value inside `vmap` over `B` elements: shared by all of them, or one per element. -/
inductive BV (B : ℕ) (α : Type) where
  | un (a : α)
  | ba (f : Fin B → α)

namespace BV

variable {B : ℕ} {α β γ : Type}

/-- The value that batch element `i` sees. -/
def «at» : BV B α → Fin B → α
  | un a, _ => a
  | ba f, i => f i

/-- Does the value carry the batch? -/
def batched : BV B α → Bool
  | un _ => false
  | ba _ => true

/-- A functional operation. -/
def map (f : α → β) : BV B α → BV B β
  | un a => un (f a)
  | ba g => ba fun i => f (g i)

def ap : BV B (α → β) → BV B α → BV B β
  | un f, un a => un (f a)
  | un f, ba g => ba fun i => f (g i)
  | ba f, un a => ba fun i => f i a
  | ba f, ba g => ba fun i => f i (g i)

def map2 (f : α → β → γ) (a : BV B α) (b : BV B β) : BV B γ := (a.map f).ap b

/-- The shared value, if it is shared. -/
def un? : BV B α → Option α
  | un a => some a
  | ba _ => none

end BV

/-- Exceptions inside `vmap`. -/
inductive VmapErr where
  /-- torch: in-place operation on a shared tensor with a batched operand -/
  | inplace
  /-- branch on a batched value -/
  | control
  | indexError
  | valueError
  deriving DecidableEq, Repr

/-- `s = f(s, v)` written in place. -/
def BV.inplace {B : ℕ} {α β : Type} (b : Backend) (f : α → β → α) (s : BV B α) (v : BV B β) :
    Except VmapErr (BV B α) :=
  match b, s, v with
  | .torch, .un _, .ba _ => .error .inplace
  | _, _, _ => .ok (s.map2 f v)

variable {B : ℕ} {K : Type}

/-! ### Light -/

/-- light_stack.py:81-84: `brightness = zeros_like(x)`, then `brightness += model.brightness(x, y)`.
Each model is its brightness function for the parameters of each batch element. -/
def lightStackB [AddCommMonoid K] (b : Backend) (models : List (BV B (K → K → K))) (x y : BV B K) :
    Except VmapErr (BV B K) :=
  models.foldlM (fun acc m => acc.inplace b (· + ·) ((m.ap x).ap y)) (x.map fun _ => 0)

/-- lens_source.py:372-400 at one pixel of the fine grid, before the PSF: `quad` is the integration over
the quadrature points (a function of the array of fine values), `lensLight = none` is a missing model,
`lens` is `raytrace`. -/
def lensSourceMuB {G V : Type} (b : Backend) [Add K] (zero : K) (quad : V → K)
    (sourceLight lensSource : Bool) (lens : BV B (G → G)) (source : BV B (G → V))
    (lensLight : Option (BV B (G → V))) (grid : BV B G) : Except VmapErr (BV B K) :=
  let mu := if sourceLight then
      (if lensSource then (source.ap (lens.ap grid)).map quad else (source.ap grid).map quad)
    else grid.map fun _ => zero
  match lensLight with
  | none => .ok mu
  | some l => mu.inplace b (· + ·) ((l.ap grid).map quad)

/-! ### Lenses -/

/-- singleplane.py:92-98: `ax = ax + ax_`, functional. -/
def singlePlaneDeflectionB [AddCommMonoid K] (lenses : List (BV B (LensFn K))) (x y : BV B K) :
    BV B K × BV B K :=
  lenses.foldl (fun acc l =>
    let a := ((l.map LensFn.deflection).ap x).ap y
    (acc.1.map2 (· + ·) (a.map Prod.fst), acc.2.map2 (· + ·) (a.map Prod.snd)))
    (x.map fun _ => 0, x.map fun _ => 0)

/-- singleplane.py:130-134. -/
def singlePlaneConvergenceB [AddCommMonoid K] (lenses : List (BV B (LensFn K))) (x y : BV B K) :
    BV B K :=
  lenses.foldl (fun acc l => acc.map2 (· + ·) (((l.map LensFn.convergence).ap x).ap y))
    (x.map fun _ => 0)

/-- singleplane.py:166-170. -/
def singlePlanePotentialB [AddCommMonoid K] (lenses : List (BV B (LensFn K))) (x y : BV B K) :
    BV B K :=
  lenses.foldl (fun acc l => acc.map2 (· + ·) (((l.map LensFn.potential).ap x).ap y))
    (x.map fun _ => 0)

/-- lenses/base.py:932-944 `time_delay` of a thin lens: `TD = TD - potential`, functional. -/
def thinTimeDelayB [Field K] [LinearOrder K] (e : BV B (MPEnv K)) (zs : BV B K)
    (shapiro geometric : Bool) (l : BV B (ThinLensFn K)) (x y : BV B K) : BV B K :=
  let td0 : BV B K := x.map fun _ => 0
  let td1 := if shapiro then td0.map2 (· - ·) (((l.map ThinLensFn.psi).ap x).ap y) else td0
  let td2 := if geometric then
      let a := ((l.map ThinLensFn.reduced).ap x).ap y
      td1.map2 (· + ·) (a.map fun a => (1 / 2) * (a.1 ^ 2 + a.2 ^ 2))
    else td1
  let factor := ((e.map fun e zs (l : ThinLensFn K) =>
    e.arcsec2ToDays (e.angDist l.z) (e.angDist zs) (e.angDist12 l.z zs) l.z).ap zs).ap l
  factor.map2 (· * ·) td2

/-- A lens of a multiplane system inside `vmap`. -/
structure MPlaneB (B : ℕ) (K : Type) where
  z : BV B K
  alpha : BV B (K → K → K × K)
  psi : BV B (K → K → K)

/-- What batch element `i` sees of it. -/
def MPlaneB.item (l : MPlaneB B K) (i : Fin B) : MPlane K := ⟨l.z.at i, l.alpha.at i, l.psi.at i⟩

/-- multiplane.py:78 `sorted(enumerate(z_ls), key=itemgetter(1))`: with two lenses or more every
redshift is compared with another one. -/
def lensPlanesB [Field K] [LinearOrder K] (zs : List (BV B K)) : Except VmapErr (List ℕ) :=
  match zs with
  | [] => .ok []
  | [_] => .ok [0]
  | _ =>
    match zs.mapM BV.un? with
    | some vs => .ok (lensPlanes vs)
    | none => .error .control

/-- `X, Y, theta_x, theta_y, TD`. -/
structure MPStateB (B : ℕ) (K : Type) where
  X : BV B K
  Y : BV B K
  thx : BV B K
  thy : BV B K
  td : BV B K

/-- The loop body multiplane.py:93-121; the delay is updated in place (114, 116). -/
def mpBodyB [Field K] [LinearOrder K] (b : Backend) (e : BV B (MPEnv K)) (zs : BV B K)
    (shapiro geometric : Bool) (l : MPlaneB B K) (zNext : BV B K) (s : MPStateB B K) :
    Except VmapErr (MPStateB B K) :=
  let dS := (e.map MPEnv.dist).ap zs
  let dL := (e.map MPEnv.dist).ap l.z
  let d := ((e.map MPEnv.dist12).ap l.z).ap zNext
  let dIs := ((e.map MPEnv.dist12).ap l.z).ap zs
  let dNext := (e.map MPEnv.dist).ap zNext
  let toArcsec (p : BV B K) : BV B K :=
    (p.map2 (· * ·) (e.map MPEnv.radToArcsec)).map2 (· / ·) dL
  let px := toArcsec s.X
  let py := toArcsec s.Y
  let al := (l.alpha.ap px).ap py
  let thx := s.thx.map2 (· - ·) (al.map Prod.fst)
  let thy := s.thy.map2 (· - ·) (al.map Prod.snd)
  let tau := (((l.z.map2 (fun z dL => (1 + z) * dL) dL).map2 (· * ·) dNext).map2
    (fun t (de : K × MPEnv K) => t / (de.1 * de.2.cMpcS) / de.2.daysToSeconds)
      (d.map2 Prod.mk e))
  let beta := (d.map2 (· * ·) dS).map2 (· / ·) (dNext.map2 (· * ·) dIs)
  let ar2 := e.map fun e => e.arcsecToRad ^ 2
  let td1 := if shapiro then
      s.td.inplace b (· + ·)
        (((tau.map2 (fun t b => -t * b) beta).map2 (· * ·) ar2).map2 (· * ·) ((l.psi.ap px).ap py))
    else .ok s.td
  match td1 with
  | .error err => .error err
  | .ok td1 =>
    let td2 := if geometric then
        td1.inplace b (· + ·)
          ((tau.map2 (fun t a => t * a * (1 / 2)) ar2).map2 (· * ·)
            (al.map fun a => a.1 ^ 2 + a.2 ^ 2))
      else .ok td1
    match td2 with
    | .error err => .error err
    | .ok td2 =>
      let step (p th : BV B K) : BV B K :=
        p.map2 (· + ·) ((d.map2 (· * ·) th).map2 (· * ·) (e.map MPEnv.arcsecToRad))
      .ok { X := step s.X thx, Y := step s.Y thy, thx := thx, thy := thy, td := td2 }

/-- multiplane.py:92-121 `for i in lens_planes`. -/
def mpLoopB [Field K] [LinearOrder K] (b : Backend) (e : BV B (MPEnv K)) (zs : BV B K)
    (shapiro geometric : Bool) (lenses : List (MPlaneB B K)) (last : ℕ) :
    List ℕ → MPStateB B K → Except VmapErr (MPStateB B K)
  | [], s => .ok s
  | i :: is, s =>
    match lenses[i]?, (if i ≠ last then (lenses.map MPlaneB.z)[i + 1]? else some zs) with
    | some l, some zNext =>
      match mpBodyB b e zs shapiro geometric l zNext s with
      | .ok s' => mpLoopB b e zs shapiro geometric lenses last is s'
      | .error err => .error err
    | _, _ => .error .indexError

/-- multiplane.py:66-132 `_raytrace_helper`: the end position and the delay.  `TD` only exists when one of
the two contributions is asked for (88-89); otherwise the third component is not used. -/
def mpHelperB [Field K] [LinearOrder K] (b : Backend) (e : BV B (MPEnv K)) (zs : BV B K)
    (shapiro geometric : Bool) (lenses : List (MPlaneB B K)) (x y : BV B K) :
    Except VmapErr ((BV B K × BV B K) × BV B K) :=
  match lensPlanesB (lenses.map MPlaneB.z) with
  | .error err => .error err
  | .ok order =>
    match order.head?, order.getLast? with
    | some i0, some last =>
      match (lenses.map MPlaneB.z)[i0]? with
      | some z0 =>
        let d := (e.map MPEnv.dist).ap z0
        let start (p : BV B K) : BV B K :=
          (p.map2 (· * ·) (e.map MPEnv.arcsecToRad)).map2 (· * ·) d
        let s0 : MPStateB B K :=
          { X := start x, Y := start y, thx := x, thy := y, td := x.map fun _ => 0 }
        match mpLoopB b e zs shapiro geometric lenses last order s0 with
        | .ok s =>
          let dEnd := (e.map MPEnv.dist).ap zs
          let out (p : BV B K) : BV B K :=
            (p.map2 (· * ·) (e.map MPEnv.radToArcsec)).map2 (· / ·) dEnd
          .ok ((out s.X, out s.Y), s.td)
        | .error err => .error err
      | none => .error .indexError
    | _, _ => .error .indexError

/-- multiplane.py:135-200 `raytrace`. -/
def mpRaytraceB [Field K] [LinearOrder K] (b : Backend) (e : BV B (MPEnv K)) (zs : BV B K)
    (lenses : List (MPlaneB B K)) (x y : BV B K) : Except VmapErr (BV B (K × K)) :=
  match mpHelperB b e zs false false lenses x y with
  | .ok r => .ok (r.1.1.map2 Prod.mk r.1.2)
  | .error err => .error err

/-- multiplane.py:250-312 `time_delay`. -/
def mpTimeDelayB [Field K] [LinearOrder K] (b : Backend) (e : BV B (MPEnv K)) (zs : BV B K)
    (shapiro geometric : Bool) (lenses : List (MPlaneB B K)) (x y : BV B K) :
    Except VmapErr (BV B K) :=
  if shapiro || geometric then
    match mpHelperB b e zs shapiro geometric lenses x y with
    | .ok r => .ok r.2
    | .error err => .error err
  else .error .valueError

/-- lenses/base.py:455-465 and 958-968 at one grid point: `J = zeros((*ax.shape, 2, 2))`, which never
carries the batch, then four `fill_at_indices`. -/
def jacFiniteDiffB [Field K] (b : Backend) (gx gy : BV B (K × K)) : Except VmapErr (BV B (M22 K)) :=
  match (BV.un (⟨0, 0, 0, 0⟩ : M22 K)).inplace b (fun J v => { J with a01 := v }) (gx.map Prod.fst) with
  | .error err => .error err
  | .ok J =>
    match J.inplace b (fun J v => { J with a00 := v }) (gx.map Prod.snd) with
    | .error err => .error err
    | .ok J =>
      match J.inplace b (fun J v => { J with a11 := v }) (gy.map Prod.fst) with
      | .error err => .error err
      | .ok J => J.inplace b (fun J v => { J with a10 := v }) (gy.map Prod.snd)

/-! ### World coordinates -/

/-- utils.py:314-319 and 520-524: `delta` starts as zeros like `like`, `delta += coefs[p] * ...`. -/
def sipDeltaB (b : Backend) (like : BV B (ℝ × ℝ)) (powers : List (ℕ × ℕ))
    (coefs : List (BV B (ℝ × ℝ))) (v : BV B (ℝ × ℝ)) : Except VmapErr (BV B (ℝ × ℝ)) :=
  if coefs.length < powers.length then .error .indexError
  else (powers.zip coefs).foldlM
    (fun acc t => acc.inplace b (· + ·) (t.2.map2
      (fun c v => (c.1 * (v.1 ^ t.1.1 * v.2 ^ t.1.2), c.2 * (v.1 ^ t.1.1 * v.2 ^ t.1.2))) v))
    (like.map fun _ => (0, 0))

/-- utils.py:311-321 `pixel_to_plane` (with `crplane` given). -/
def pixelToPlaneB (b : Backend) (ij : BV B (ℝ × ℝ)) (crpix : BV B (ℝ × ℝ)) (cd : BV B CDMatrix)
    (powers : List (ℕ × ℕ)) (coefs : List (BV B (ℝ × ℝ))) (crplane : BV B (ℝ × ℝ)) :
    Except VmapErr (BV B (ℝ × ℝ)) :=
  let pixel := ij.map2 (· - ·) crpix
  match sipDeltaB b pixel powers coefs pixel with
  | .error err => .error err
  | .ok delta => .ok (((cd.map CDMatrix.apply).ap (pixel.map2 (· + ·) delta)).map2 (· + ·) crplane)

end Caustics
