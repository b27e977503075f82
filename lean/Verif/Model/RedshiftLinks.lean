import Verif.Model.Py
import Mathlib.Logic.Function.Basic

/-!
The redshift parameters of lens objects, and what the constructors of the composite lenses `SinglePlane`,
`BatchedPlane` and `Multiplane` do to those of their members.

A lens object is a number: the position at which it was created.  Its parameters `z_l` and `z_s` are known by the
number of the lens.  Assumed of `caskade` (not part of /repo): assigning a number to a parameter attribute fixes it,
assigning `None` frees it, assigning another parameter makes it a pointer to that parameter, each whatever it was before.
Not modelled: names, the other parameters, pointers the user sets by hand.
-/

namespace Caustics

variable {K : Type}

/-- How a parameter gets its value. -/
inductive ZKind (K : Type)
  | static (v : K)
  | free
  /-- the same parameter of another lens -/
  | pointer (owner : ℕ)

/-- `Param("z_s", z_s)`: `None` leaves the parameter free. -/
def ZKind.ofArg : Option K → ZKind K
  | some v => .static v
  | none => .free

inductive ZLensKind
  | thin
  | single
  | batched
  | multi
  deriving DecidableEq

/-- A lens object.  A `Multiplane` is a `ThickLens` and has no `z_l` (lenses/base.py:211, 593-625).  `live` is false for an
object whose constructor raised: nobody holds it. -/
structure ZLens (K : Type) where
  kind : ZLensKind
  members : List ℕ
  zl : Option (ZKind K)
  zs : ZKind K
  live : Bool

/-- The objects created so far are those with numbers below `n`. -/
structure ZWorld (K : Type) where
  n : ℕ
  lens : ℕ → ZLens K

/-- A warning: the redshift of a lens was fixed and is overwritten. -/
inductive ZWarn
  | lensRedshift (i : ℕ)
  | sourceRedshift (i : ℕ)
  deriving DecidableEq

def ZKind.isStatic : ZKind K → Bool
  | .static _ => true
  | _ => false

/-- What a statement leaves: the objects, the warnings it issued, its exception. -/
abbrev ZRes (K : Type) := ZWorld K × List ZWarn × Option PyErr

def ZWorld.setLens (w : ZWorld K) (i : ℕ) (l : ZLens K) : ZWorld K := { w with lens := Function.update w.lens i l }

/-- `if lens.z_l.static: warn(...)` and `lens.z_l = self.z_l` (lenses/singleplane.py:45-49, lenses/batchedplane.py:48-52). -/
def handDownZl (c m : ℕ) (w : ZWorld K) : ZRes K :=
  match (w.lens m).zl with
  | none => (w, [], some .attributeError)
  | some k => (w.setLens m { w.lens m with zl := some (.pointer c) }, if k.isStatic then [.lensRedshift m] else [], none)

/-- `if lens.z_s.static: warn(...)` and `lens.z_s = self.z_s` (lenses/singleplane.py:51-55, lenses/batchedplane.py:53-57,
lenses/multiplane.py:45-49). -/
def handDownZs (c m : ℕ) (w : ZWorld K) : ZRes K :=
  (w.setLens m { w.lens m with zs := .pointer c }, if (w.lens m).zs.isStatic then [.sourceRedshift m] else [], none)

/-- Statements in sequence, stopping at the first exception. -/
def zSeq : List (ZWorld K → ZRes K) → ZWorld K → ZRes K
  | [], w => (w, [], none)
  | f :: fs, w =>
    match f w with
    | (w', l, none) => let r := zSeq fs w'; (r.1, l ++ r.2.1, r.2.2)
    | (w', l, some e) => (w', l, some e)

/-- The loop over the members. -/
def zHandDown (kind : ZLensKind) (c : ℕ) (ms : List ℕ) : ZWorld K → ZRes K :=
  zSeq (ms.flatMap fun m => if kind = .multi then [handDownZs c m] else [handDownZl c m, handDownZs c m])

/-- What a user can do. -/
inductive ZCmd (K : Type)
  /-- Construct a lens that is not composite. -/
  | newThin (zl zs : Option K)
  /-- lenses/singleplane.py:30-55; `BatchedPlane` (lenses/batchedplane.py:34-58) is the same with one member. -/
  | newSingle (members : List ℕ) (zl zs : Option K)
  | newBatched (member : ℕ) (zl zs : Option K)
  /-- lenses/multiplane.py:35-49. -/
  | newMulti (members : List ℕ) (zs : Option K)
  /-- `lens.z_l = v`, where `v` may be `None` -/
  | setZl (i : ℕ) (v : Option K)
  | setZs (i : ℕ) (v : Option K)

/-- The members a constructor is called with. -/
def ZCmd.members : ZCmd K → List ℕ
  | .newSingle ms _ _ => ms
  | .newBatched m _ _ => [m]
  | .newMulti ms _ => ms
  | _ => []

/-- A constructor: the object is created, then the redshifts are handed down; if that raises the object is lost. -/
def zConstruct (kind : ZLensKind) (ms : List ℕ) (zl : Option (ZKind K)) (zs : ZKind K) (w : ZWorld K) : ZRes K :=
  let c := w.n
  let w1 : ZWorld K := ⟨c + 1, Function.update w.lens c ⟨kind, ms, zl, zs, false⟩⟩
  match zHandDown kind c ms w1 with
  | (w2, l, none) => (w2.setLens c { w2.lens c with live := true }, l, none)
  | (w2, l, some e) => (w2, l, some e)

/-- One statement.  A name that is not bound raises before anything happens; no name is bound to an object whose constructor
raised. -/
def ZCmd.run (s : ZCmd K) (w : ZWorld K) : ZRes K :=
  if s.members.all (fun m => m < w.n && (w.lens m).live) then
    match s with
    | .newThin zl zs => zConstruct .thin [] (some (.ofArg zl)) (.ofArg zs) w
    | .newSingle ms zl zs => zConstruct .single ms (some (.ofArg zl)) (.ofArg zs) w
    | .newBatched m zl zs => zConstruct .batched [m] (some (.ofArg zl)) (.ofArg zs) w
    | .newMulti ms zs => zConstruct .multi ms none (.ofArg zs) w
    | .setZl i v =>
      if i < w.n ∧ (w.lens i).live then
        match (w.lens i).zl with
        -- an ordinary Python attribute is created, nobody reads it
        | none => (w, [], none)
        | some _ => (w.setLens i { w.lens i with zl := some (.ofArg v) }, [], none)
      else (w, [], some .unboundLocal)
    | .setZs i v =>
      if i < w.n ∧ (w.lens i).live then (w.setLens i { w.lens i with zs := .ofArg v }, [], none) else (w, [], some .unboundLocal)
  else (w, [], some .unboundLocal)

/-- No objects yet. -/
def ZWorld.empty : ZWorld K := ⟨0, fun _ => ⟨.thin, [], some .free, .free, false⟩⟩

/-- Statements one after the other; exceptions are caught by the user, who goes on. -/
def zRun (p : List (ZCmd K)) (w : ZWorld K) : ZWorld K := p.foldl (fun w s => (s.run w).1) w

/-- The value of a parameter: pointers are followed; `env` holds the values of the free ones.  `none`: there is no such
parameter (`AttributeError`), or the pointers do not end. -/
def zResolve (k : ℕ → Option (ZKind K)) (env : ℕ → K) : ℕ → ℕ → Option K
  | 0, _ => none
  | fuel + 1, i =>
    match k i with
    | none => none
    | some (.static v) => some v
    | some .free => some (env i)
    | some (.pointer j) => zResolve k env fuel j

/-- `lens.z_l.value`; `env` holds the values of the free parameters `z_l`. -/
def ZWorld.zlOf (w : ZWorld K) (env : ℕ → K) (i : ℕ) : Option K := zResolve (fun j => (w.lens j).zl) env w.n i

/-- `lens.z_s.value`. -/
def ZWorld.zsOf (w : ZWorld K) (env : ℕ → K) (i : ℕ) : Option K := zResolve (fun j => some (w.lens j).zs) env w.n i

/-- lenses/multiplane.py:52-63 `get_z_ls`. -/
def ZWorld.getZls (w : ZWorld K) (env : ℕ → K) (c : ℕ) : Option (List K) := (w.lens c).members.mapM (w.zlOf env)

/-- lenses/singleplane.py:58-98 `reduced_deflection_angle`, the members being evaluated with their own redshifts; `alpha i` is
the deflection of the lens `i` at given redshifts and a fixed position.  A `BatchedPlane` needs further arguments and a
`Multiplane` has no reduced deflection: `none`. -/
def ZWorld.deflection [Add K] [Zero K] (w : ZWorld K) (envL envS : ℕ → K) (alpha : ℕ → K → K → K) : ℕ → ℕ → Option K
  | 0, _ => none
  | fuel + 1, i =>
    match (w.lens i).kind with
    | .thin => do
      let zl ← w.zlOf envL i
      let zs ← w.zsOf envS i
      pure (alpha i zl zs)
    | .single => (w.lens i).members.foldlM (fun acc m => (w.deflection envL envS alpha fuel m).map (acc + ·)) 0
    | _ => none

end Caustics
