import Verif.Model.Lenses
import Verif.Model.Cosmology

/-!
The `parametrization` setters of `ExternalShear` (lenses/external_shear.py:104-167), `Point`
(lenses/point.py:132-175) and `SIE` (lenses/sie.py:142-190), as programs on the part of the object
graph they touch: the lens' parameter attributes, the derived parameters (`gamma_1`, `gamma_2` or
`Rein`) with their links, and the values held by the parameters that get created.  Every `Param(...)`
call makes a new object, so objects carry an identity besides their name.

Not modelled: warnings, shapes and units.  Assumed of `caskade` (not part of /repo): assigning `None`
makes a parameter free, assigning a function makes it computed, and neither changes its links;
`link` adds a child under the child's name; `unlink` of something not linked is an error other than
AttributeError; reading or deleting a missing attribute is an AttributeError; deleting an attribute
of the lens does not touch the links of other parameters.  What `link` does when a *different*
object is already linked under that name is left open: `LinkPolicy` has both sensible behaviours,
and theorems state for which they hold.
-/

namespace Caustics

/-- How a parameter gets its value. -/
inductive ParKind
  | free
  | static (v : ℝ)
  | computed

/-- A derived parameter as a graph node: its children by name. -/
structure ParNode where
  kind : ParKind
  links : List (String × ℕ)

/-- `link` under a name already in use. -/
inductive LinkPolicy
  | refuse
  | replace
  deriving DecidableEq

inductive ParErr
  | attribute
  | value
  | graph
  deriving DecidableEq

/-- The part of a lens the setters touch. `attrs`: its parameter attributes; `vals`: content of
the parameter objects; `next`: identity of the next object; `nodes`: the derived parameters. -/
structure ParObj where
  par : String
  attrs : List (String × ℕ)
  vals : ℕ → ParKind
  next : ℕ
  nodes : String → ParNode

/-- A statement: new state and possibly an exception (the state survives the exception). -/
abbrev ParStmt := ParObj → ParObj × Option ParErr

/-- Statements in sequence, stopping at the first exception. -/
def parSeq : List ParStmt → ParStmt
  | [], s => (s, none)
  | f :: fs, s =>
    match f s with
    | (s', none) => parSeq fs s'
    | (s', some e) => (s', some e)

/-- `try: body except AttributeError: pass`. -/
def parTry (body : ParStmt) : ParStmt := fun s =>
  match body s with
  | (s', some .attribute) => (s', none)
  | r => r

/-- Adding a child under a name. -/
def parLinkKey (pol : LinkPolicy) (key : String) (id : ℕ) (l : List (String × ℕ)) :
    Option (List (String × ℕ)) :=
  match l.lookup key with
  | none => some ((key, id) :: l)
  | some _ =>
    match pol with
    | .refuse => none
    | .replace => some ((key, id) :: l.filter (fun e => e.1 ≠ key))

/-- `self.p = Param("p", ...)` without a value. -/
def parCreate (pol : LinkPolicy) (p : String) : ParStmt := fun s =>
  match parLinkKey pol p s.next s.attrs with
  | none => (s, some .graph)
  | some l =>
    ({ s with attrs := l, vals := Function.update s.vals s.next .free, next := s.next + 1 }, none)

/-- `del self.p`. -/
def parDelete (p : String) : ParStmt := fun s =>
  match s.attrs.lookup p with
  | none => (s, some .attribute)
  | some _ => ({ s with attrs := s.attrs.filter (fun e => e.1 ≠ p) }, none)

/-- Evaluate `self.p` only (as in `if self.p.static`). -/
def parRead (p : String) : ParStmt := fun s =>
  match s.attrs.lookup p with
  | none => (s, some .attribute)
  | some _ => (s, none)

/-- `self.n.value = ...`. -/
def parSetKind (n : String) (k : ParKind) : ParStmt := fun s =>
  ({ s with nodes := Function.update s.nodes n { s.nodes n with kind := k } }, none)

/-- `self.n.link(self.p)`. -/
def parLink (pol : LinkPolicy) (n p : String) : ParStmt := fun s =>
  match s.attrs.lookup p with
  | none => (s, some .attribute)
  | some i =>
    match parLinkKey pol p i (s.nodes n).links with
    | none => (s, some .graph)
    | some l => ({ s with nodes := Function.update s.nodes n { s.nodes n with links := l } }, none)

/-- `self.n.unlink(self.p)`. -/
def parUnlink (n p : String) : ParStmt := fun s =>
  match s.attrs.lookup p with
  | none => (s, some .attribute)
  | some i =>
    if i ∈ (s.nodes n).links.map Prod.snd then
      ({ s with nodes := Function.update s.nodes n { s.nodes n with
          links := (s.nodes n).links.filter (fun e => e.2 ≠ i) } }, none)
    else (s, some .graph)

/-- `self._parametrization = value`. -/
def parName (v : String) : ParStmt := fun s => ({ s with par := v }, none)

/-! ### ExternalShear -/

/-- external_shear.py:115-142. -/
def shearToAngular (pol : LinkPolicy) : ParStmt := parSeq
  [parCreate pol "gamma", parCreate pol "phi",
   parSetKind "gamma_1" .computed, parSetKind "gamma_2" .computed,
   parLink pol "gamma_1" "gamma", parLink pol "gamma_1" "phi",
   parLink pol "gamma_2" "gamma", parLink pol "gamma_2" "phi"]

/-- external_shear.py:144-165. -/
def shearToCartesian : ParStmt := parSeq
  [parSetKind "gamma_1" .free, parSetKind "gamma_2" .free,
   parTry (parSeq [parRead "gamma", parUnlink "gamma_1" "gamma", parUnlink "gamma_2" "gamma",
     parDelete "gamma"]),
   parTry (parSeq [parRead "phi", parUnlink "gamma_1" "phi", parUnlink "gamma_2" "phi",
     parDelete "phi"])]

/-- external_shear.py:108-167, the setter.  The second `if` looks at `_parametrization`, which the
first has not changed yet; the two bodies exclude each other through `value`. -/
def shearSetPar (pol : LinkPolicy) (value : String) : ParStmt := fun s =>
  if value ∉ ["cartesian", "angular"] then (s, some .value)
  else if value = "angular" ∧ s.par ≠ "angular" then
    parSeq [shearToAngular pol, parName value] s
  else if value = "cartesian" ∧ s.par ≠ "cartesian" then
    parSeq [shearToCartesian, parName value] s
  else parName value s

/-- A parameter constructed with a value or without. -/
def parInitKind : Option ℝ → ParKind
  | some v => .static v
  | none => .free

/-- external_shear.py:91-97, before `parametrization` is assigned. -/
def shearInit (g1 g2 : Option ℝ) : ParObj where
  par := "cartesian"
  attrs := []
  vals := fun _ => .free
  next := 0
  nodes := fun n =>
    if n = "gamma_1" then ⟨parInitKind g1, []⟩
    else if n = "gamma_2" then ⟨parInitKind g2, []⟩ else ⟨.free, []⟩

/-! ### Point and SIE -/

/-- What distinguishes the two setters: the name of the other parametrization and of its
parameter. -/
structure RadNames where
  par : String
  param : String

/-- point.py:132-175. -/
def pointNames : RadNames := ⟨"mass", "mass"⟩

/-- sie.py:142-190. -/
def sieNames : RadNames := ⟨"velocity_dispersion", "sigma_v"⟩

/-- point.py:143-163; sie.py:156-178. -/
def radToOther (pol : LinkPolicy) (nm : RadNames) : ParStmt := parSeq
  [parCreate pol nm.param, parSetKind "Rein" .computed, parLink pol "Rein" nm.param,
   parLink pol "Rein" "z_s", parLink pol "Rein" "z_l", parLink pol "Rein" "cosmology"]

/-- point.py:165-173; sie.py:180-188. -/
def radToRein (nm : RadNames) : ParStmt :=
  parTry (parSeq [parSetKind "Rein" .free, parRead nm.param, parDelete nm.param])

/-- point.py:136-175; sie.py:146-190. -/
def radSetPar (pol : LinkPolicy) (nm : RadNames) (value : String) : ParStmt := fun s =>
  if value ∉ ["Rein", nm.par] then (s, some .value)
  else if value = nm.par ∧ s.par ≠ nm.par then
    parSeq [radToOther pol nm, parName value] s
  else if value = "Rein" ∧ s.par ≠ "Rein" then
    parSeq [radToRein nm, parName value] s
  else parName value s

/-- point.py:121-126; sie.py:120-129: `z_s`, `z_l` and the cosmology are attributes 0, 1, 2. -/
def radInit (rein zs zl : Option ℝ) : ParObj where
  par := "Rein"
  attrs := [("z_s", 0), ("z_l", 1), ("cosmology", 2)]
  vals := fun i => if i = 0 then parInitKind zs else if i = 1 then parInitKind zl else .free
  next := 3
  nodes := fun n => if n = "Rein" then ⟨parInitKind rein, []⟩ else ⟨.free, []⟩

/-! ### Values and histories -/

/-- Value of parameter object `i`; `env` supplies the free ones. -/
def parVal (s : ParObj) (env : ℕ → ℝ) (i : ℕ) : ℝ :=
  match s.vals i with
  | .static v => v
  | _ => env i

/-- `p[key].value` in the function of a computed parameter: KeyError (`none`) without the link. -/
def parArg (s : ParObj) (env : ℕ → ℝ) (n key : String) : Option ℝ :=
  ((s.nodes n).links.lookup key).map (parVal s env)

/-- Value of a derived parameter: `own` if free. -/
def parNodeValue (s : ParObj) (n : String) (own : ℝ) (computed : Option ℝ) : Option ℝ :=
  match (s.nodes n).kind with
  | .free => some own
  | .static v => some v
  | .computed => computed

/-- external_shear.py:129-131. -/
noncomputable def shearGamma1 (s : ParObj) (env : ℕ → ℝ) (own : ℝ) : Option ℝ :=
  parNodeValue s "gamma_1" own <| do
    let g ← parArg s env "gamma_1" "gamma"
    let p ← parArg s env "gamma_1" "phi"
    return gammaPhiToGamma1 g p

/-- external_shear.py:136-138. -/
noncomputable def shearGamma2 (s : ParObj) (env : ℕ → ℝ) (own : ℝ) : Option ℝ :=
  parNodeValue s "gamma_2" own <| do
    let g ← parArg s env "gamma_2" "gamma"
    let p ← parArg s env "gamma_2" "phi"
    return gammaPhiToGamma2 g p

/-- point.py:147-153, given the linked cosmology. -/
noncomputable def pointConv (c : Cosmo) (mass zl zs : ℝ) : ℝ :=
  massToReinPoint c.GOverC2 mass (c.angular12 zl zs) (c.angular zl) (c.angular zs)

/-- sie.py:167-172; `ckms` is `c_km_s`. -/
noncomputable def sieConv (ckms : ℝ) (c : Cosmo) (sv zl zs : ℝ) : ℝ :=
  sigmaVToRein ckms sv (c.angular12 zl zs) (c.angular zs)

/-- Value of `Rein`, `conv` one of the two functions above. -/
def radRein (nm : RadNames) (conv : ℝ → ℝ → ℝ → ℝ) (s : ParObj) (env : ℕ → ℝ) (own : ℝ) :
    Option ℝ :=
  parNodeValue s "Rein" own <| do
    let _ ← (s.nodes "Rein").links.lookup "cosmology"
    let zl ← parArg s env "Rein" "z_l"
    let zs ← parArg s env "Rein" "z_s"
    let m ← parArg s env "Rein" nm.param
    return conv m zl zs

/-- What a user does: assign `parametrization`; assign a value or `None` to a derived parameter
that is not computed, or to a parameter attribute that exists. -/
inductive ParOp
  | setPar (value : String)
  | assignNode (n : String) (v : Option ℝ)
  | assignAttr (p : String) (v : Option ℝ)

open Classical in
/-- One user operation; `set` is the class' setter.  Assigning to a computed parameter (overwriting
its function) or to a name that is not a parameter is outside the quantifier and not done. -/
noncomputable def parStep (set : String → ParStmt) (s : ParObj) : ParOp → ParObj × Option ParErr
  | .setPar v => set v s
  | .assignNode n v =>
    if (s.nodes n).kind = .computed then (s, none) else parSetKind n (parInitKind v) s
  | .assignAttr p v =>
    match s.attrs.lookup p with
    | none => (s, none)
    | some i => ({ s with vals := Function.update s.vals i (parInitKind v) }, none)

/-- A history of operations; exceptions are caught by the user, who carries on. -/
noncomputable def parRun (set : String → ParStmt) (s : ParObj) (ops : List ParOp) : ParObj :=
  ops.foldl (fun s op => (parStep set s op).1) s

end Caustics
