import Verif.Model.Coord

/-!
`angle_mixin.py:51-143`: the `angle_system` property, as a state machine over which parameters an
object has, how `q` and `phi` are defined, and which parameters they are linked to.

Not modelled: array shapes copied between parameters, and the `caskade` library itself.  Assumed
of `caskade`: assigning `None` makes a parameter free, assigning a function makes it computed,
neither changes its links; `link`/`unlink` add/remove one link and unlinking something that is not
linked is an error other than AttributeError; reading or deleting a missing attribute is an
AttributeError.
-/

namespace Caustics

/-- The extra parameters an object may carry. -/
inductive AngParam
  | e1 | e2 | c1 | c2
  deriving DecidableEq, Repr

/-- How `q` or `phi` gets its value. -/
inductive AngDef
  | free
  | static (v : ℝ)
  | fromE
  | fromC

/-- `q` or `phi` as a graph node. -/
structure AngNode where
  kind : AngDef
  links : List AngParam

inductive AngSys
  | qPhi | e1e2 | c1c2
  deriving DecidableEq

/-- The part of the object the setter touches. -/
structure AngObj where
  sys : AngSys
  attrs : List AngParam
  q : AngNode
  phi : AngNode

inductive AngErr
  | attribute
  | value
  | link
  deriving DecidableEq

/-- A statement: new state and possibly an exception (the state survives the exception). -/
abbrev AngStmt := AngObj → AngObj × Option AngErr

/-- Statements in sequence, stopping at the first exception. -/
def angSeq : List AngStmt → AngStmt
  | [], s => (s, none)
  | f :: fs, s =>
    match f s with
    | (s', none) => angSeq fs s'
    | (s', some e) => (s', some e)

/-- `try: body except AttributeError: pass`. -/
def angTry (body : AngStmt) : AngStmt := fun s =>
  match body s with
  | (s', some .attribute) => (s', none)
  | r => r

/-- `self.p = Param(...)`. -/
def angCreate (p : AngParam) : AngStmt := fun s =>
  ({ s with attrs := p :: s.attrs.filter (· ≠ p) }, none)

/-- `del self.p`. -/
def angDelete (p : AngParam) : AngStmt := fun s =>
  if p ∈ s.attrs then ({ s with attrs := s.attrs.filter (· ≠ p) }, none) else (s, some .attribute)

/-- Evaluate `self.p` only (as in `self.q.shape = self.p.shape`). -/
def angRead (p : AngParam) : AngStmt := fun s =>
  if p ∈ s.attrs then (s, none) else (s, some .attribute)

def angSetQ (d : AngDef) : AngStmt := fun s => ({ s with q := { s.q with kind := d } }, none)

def angSetPhi (d : AngDef) : AngStmt := fun s => ({ s with phi := { s.phi with kind := d } }, none)

def angLinkQ (p : AngParam) : AngStmt := fun s =>
  if p ∈ s.attrs then
    ({ s with q := { s.q with links := p :: s.q.links.filter (· ≠ p) } }, none)
  else (s, some .attribute)

def angLinkPhi (p : AngParam) : AngStmt := fun s =>
  if p ∈ s.attrs then
    ({ s with phi := { s.phi with links := p :: s.phi.links.filter (· ≠ p) } }, none)
  else (s, some .attribute)

def angUnlinkQ (p : AngParam) : AngStmt := fun s =>
  if p ∈ s.attrs then
    if p ∈ s.q.links then
      ({ s with q := { s.q with links := s.q.links.filter (· ≠ p) } }, none)
    else (s, some .link)
  else (s, some .attribute)

def angUnlinkPhi (p : AngParam) : AngStmt := fun s =>
  if p ∈ s.attrs then
    if p ∈ s.phi.links then
      ({ s with phi := { s.phi with links := s.phi.links.filter (· ≠ p) } }, none)
    else (s, some .link)
  else (s, some .attribute)

/-- angle_mixin.py:71-93. -/
def angToE : AngStmt := angSeq
  [angCreate .e1, angCreate .e2,
   angSetQ .fromE, angLinkQ .e1, angLinkQ .e2,
   angSetPhi .fromE, angLinkPhi .e1, angLinkPhi .e2,
   angTry (angSeq [angUnlinkQ .c1, angUnlinkPhi .c1, angUnlinkQ .c2, angUnlinkPhi .c2,
     angDelete .c1, angDelete .c2])]

/-- angle_mixin.py:94-116. -/
def angToC : AngStmt := angSeq
  [angCreate .c1, angCreate .c2,
   angSetQ .fromC, angLinkQ .c1, angLinkQ .c2,
   angSetPhi .fromC, angLinkPhi .c1, angLinkPhi .c2,
   angTry (angSeq [angUnlinkQ .e1, angUnlinkPhi .e1, angUnlinkQ .e2, angUnlinkPhi .e2,
     angDelete .e1, angDelete .e2])]

/-- angle_mixin.py:117-141. -/
def angToQPhi : AngStmt := angSeq
  [angSetQ .free, angSetPhi .free,
   angTry (angSeq [angRead .e1, angRead .e1, angUnlinkQ .e1, angUnlinkPhi .e1, angUnlinkQ .e2,
     angUnlinkPhi .e2, angDelete .e1, angDelete .e2]),
   angTry (angSeq [angRead .c1, angRead .c1, angUnlinkQ .c1, angUnlinkPhi .c1, angUnlinkQ .c2,
     angUnlinkPhi .c2, angDelete .c1, angDelete .c2])]

/-- angle_mixin.py:64-143, the setter. -/
def angSetSystem (value : String) : AngStmt := fun s =>
  if value ∉ ["q_phi", "e1_e2", "c1_c2"] then (s, some .value)
  else if value = "e1_e2" ∧ s.sys ≠ .e1e2 then
    angSeq [angToE, fun s => ({ s with sys := .e1e2 }, none)] s
  else if value = "c1_c2" ∧ s.sys ≠ .c1c2 then
    angSeq [angToC, fun s => ({ s with sys := .c1c2 }, none)] s
  else if value = "q_phi" ∧ s.sys ≠ .qPhi then
    angSeq [angToQPhi, fun s => ({ s with sys := .qPhi }, none)] s
  else (s, none)

/-- angle_mixin.py:52-58 `__init__`; `q` and `phi` are then created by the lens or light class,
free or with a given value. -/
def angInit (q phi : Option ℝ) : AngObj where
  sys := .qPhi
  attrs := []
  q := ⟨match q with | some v => .static v | none => .free, []⟩
  phi := ⟨match phi with | some v => .static v | none => .free, []⟩

/-- What a user does: assign `angle_system`, or assign a value (or `None`) to `q` or `phi` while
they are ordinary parameters. -/
inductive AngOp
  | setSystem (value : String)
  | assignQ (v : Option ℝ)
  | assignPhi (v : Option ℝ)

/-- One user operation.  Assigning `q`/`phi` in the other systems (which would overwrite the
definition) is outside the quantifier and modelled as not done. -/
def angStep (s : AngObj) : AngOp → AngObj × Option AngErr
  | .setSystem v => angSetSystem v s
  | .assignQ v =>
    if s.sys = .qPhi then
      angSetQ (match v with | some v => .static v | none => .free) s else (s, none)
  | .assignPhi v =>
    if s.sys = .qPhi then
      angSetPhi (match v with | some v => .static v | none => .free) s else (s, none)

/-- A history of operations; exceptions are swallowed by the user, who carries on. -/
def angRun (s : AngObj) (ops : List AngOp) : AngObj := ops.foldl (fun s op => (angStep s op).1) s

/-- Value of a node given the values of the extra parameters and, for a free node, its own.
A function that reads a parameter it is not linked to fails (`p["e1"]` KeyError). -/
noncomputable def AngNode.value (n : AngNode) (isPhi : Bool) (par : AngParam → ℝ) (own : ℝ) :
    Option ℝ :=
  match n.kind with
  | .free => some own
  | .static v => some v
  | .fromE =>
    if .e1 ∈ n.links ∧ .e2 ∈ n.links then
      some (if isPhi then e1e2ToPhi (par .e1) (par .e2) else e1e2ToQ (par .e1) (par .e2))
    else none
  | .fromC =>
    if .c1 ∈ n.links ∧ .c2 ∈ n.links then
      some (if isPhi then c1c2ToPhi (par .c1) (par .c2) else c1c2ToQ (par .c1) (par .c2))
    else none

end Caustics
