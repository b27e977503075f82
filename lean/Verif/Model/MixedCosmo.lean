import Verif.Model.LensClass

/-!
Composite lenses whose members were constructed with cosmologies of their own.  Every constructor takes a `cosmology`
(lenses/base.py:32-52) and keeps it; `SinglePlane` and `Multiplane` (lenses/singleplane.py:30-55, lenses/multiplane.py:35-49)
hand the redshifts down to their members but not the cosmology, and compare nothing.

Members are lens objects of the classes of `Model/LensClass`.  Left out: `BatchedPlane`, composites of composites.
-/

namespace Caustics

/-- A lens object: its class, its cosmology and the values of its parameters. -/
structure CLens where
  kind : LensKind
  env : LensEnv
  p : Kw

namespace CLens

/-- The parameters of a member after `lens.z_l = self.z_l` and `lens.z_s = self.z_s` (lenses/singleplane.py:49, 55). -/
def linked (l : CLens) (zl zs : ℝ) : CLens :=
  { l with p := fun n => if n = "z_l" then zl else if n = "z_s" then zs else l.p n }

/-- The same with `lens.z_s = self.z_s` only (lenses/multiplane.py:49). -/
def linkedS (l : CLens) (zs : ℝ) : CLens := { l with p := fun n => if n = "z_s" then zs else l.p n }

/-- `lens.reduced_deflection_angle(x, y)` -/
noncomputable def reduced (l : CLens) (x y : ℝ) : Except PyErr (ℝ × ℝ) := l.kind.reduced l.env l.p l.p x y

/-- `lens.physical_deflection_angle(x, y)` -/
noncomputable def physical (l : CLens) (x y : ℝ) : Except PyErr (ℝ × ℝ) := l.kind.physical l.env l.p l.p x y

/-- `lens.potential(x, y)` -/
noncomputable def potential (l : CLens) (x y : ℝ) : Except PyErr ℝ := l.kind.potential l.env l.p x y

/-- `lens.convergence(x, y)` -/
noncomputable def convergence (l : CLens) (x y : ℝ) : Option ℝ := l.kind.convergence l.env l.p x y

end CLens

/-- `SinglePlane(cosmology, lenses, z_l, z_s)` with the values of its redshifts. -/
structure CPlane where
  env : LensEnv
  zl : ℝ
  zs : ℝ
  lenses : List CLens

namespace CPlane

/-- The members as the constructor leaves them. -/
def members (c : CPlane) : List CLens := c.lenses.map fun l => l.linked c.zl c.zs

/-- lenses/singleplane.py:92-98. -/
noncomputable def reduced (c : CPlane) (x y : ℝ) : Except PyErr (ℝ × ℝ) :=
  c.members.foldlM (fun acc l => do
    let a ← l.reduced x y
    pure (acc.1 + a.1, acc.2 + a.2)) (0, 0)

/-- lenses/singleplane.py:166-170. -/
noncomputable def potential (c : CPlane) (x y : ℝ) : Except PyErr ℝ :=
  c.members.foldlM (fun acc l => do
    let v ← l.potential x y
    pure (acc + v)) 0

/-- lenses/singleplane.py:130-134; `none` is `nan` or `inf`. -/
noncomputable def convergence (c : CPlane) (x y : ℝ) : Option ℝ :=
  c.members.foldlM (fun acc l => (l.convergence x y).map (acc + ·)) 0

/-- lenses/base.py:827-863. -/
noncomputable def raytrace (c : CPlane) (x y : ℝ) : Except PyErr (ℝ × ℝ) := do
  let a ← c.reduced x y
  pure (x - a.1, y - a.2)

/-- lenses/base.py:670-710, inherited, with the distances of the plane's own cosmology. -/
noncomputable def physical (c : CPlane) (x y : ℝ) : Except PyErr (ℝ × ℝ) := do
  let a ← c.reduced x y
  pure (physicalFromReduced a (c.env.cosmo.angular c.zs) (c.env.cosmo.angular12 c.zl c.zs))

/-- lenses/base.py:793-824, inherited. -/
noncomputable def surfaceDensity (c : CPlane) (x y : ℝ) : Option ℝ :=
  (c.convergence x y).map (· * c.env.cosmo.criticalSurfaceDensity c.zl c.zs)

end CPlane

/-- `Multiplane(cosmology, lenses, z_s)` with the value of its source redshift, and the constants it uses. -/
structure CMulti where
  env : LensEnv
  zs : ℝ
  lenses : List CLens
  radToArcsec : ℝ
  cMpcS : ℝ
  daysToSeconds : ℝ

namespace CMulti

/-- The members as the constructor leaves them. -/
def members (c : CMulti) : List CLens := c.lenses.map fun l => l.linkedS c.zs

/-- What lenses/multiplane.py:66-132 takes from its own cosmology. -/
def mpEnv (c : CMulti) : MPEnv ℝ := ⟨c.env.cosmo.transverse, c.radToArcsec, c.cMpcS, c.daysToSeconds⟩

/-- `m` is the member `l` as the ray tracer sees it: its redshift and what its `physical_deflection_angle` returns, which
must not raise. -/
def IsPlane (l : CLens) (m : MPlane ℝ) : Prop := m.z = l.p "z_l" ∧ ∀ x y, l.physical x y = .ok (m.alpha x y)

/-- `raytrace(x, y)` returns `b`, the deflections of the members raising nowhere. -/
def RaytracesTo (c : CMulti) (x y : ℝ) (b : ℝ × ℝ) : Prop :=
  ∃ planes, List.Forall₂ IsPlane c.members planes ∧ mpRaytrace c.mpEnv c.zs planes x y = some b

end CMulti

end Caustics
