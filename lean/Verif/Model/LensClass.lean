import Verif.Model.TNFWMass
import Verif.Model.EPL
import Verif.Model.Cosmology
import Verif.Model.Py

/-!
The lens classes: how their methods get parameters and cosmological distances and which function
they hand them to (lenses/*.py; the functions themselves are in `Model/Lenses` and `Model/EPL`).

A `@forward` method finds each argument that is named like a parameter filled with that parameter's
current value, unless the caller passed the argument by name (`caskade`, not part of /repo; the code
itself relies on the second half at lenses/tnfw.py:327, 413, 472).  A method that calls another
method of the same object without passing an argument on therefore gets the parameter's own value
there, whatever its own caller passed.

Left out: `Multipole`, pixelated lenses and planes; arguments passed by position; `chunk_size`.
-/

open Real

namespace Caustics

/-- Values by name: the parameters of a lens, or the arguments of a call. -/
abbrev Kw := String → ℝ

/-- The lens classes with the settings that are not parameters. -/
inductive LensKind
  | sis (s : ℝ)
  | point (s : ℝ)
  | sheet
  | shear
  | sie (s : ℝ)
  | epl (s : ℝ) (n_iter : ℕ) (chunk_size : Option ℕ)
  | nfw (s : ℝ)
  | tnfw (s : ℝ) (interpretTotal : Bool)
  | pseudoJaffe (s : ℝ)
  | enclosed (s : ℝ) (mass : ℝ → ℝ → ℝ)

/-- The cosmology of a lens: distances and `critical_density`. -/
structure LensEnv where
  cosmo : Cosmo
  rhoc : ℝ → ℝ

namespace LensKind

/-- lenses/nfw.py:237-279, 291-392: the arguments handed on (`DELTA = 200`, lenses/nfw.py:12). -/
noncomputable def nfwOf (e : LensEnv) (s : ℝ) (a : Kw) : NFW where
  Gc2 := e.cosmo.GOverC2
  x0 := a "x0"
  y0 := a "y0"
  mass := a "mass"
  c := a "c"
  Delta := 200
  rhoc := e.rhoc (a "z_l")
  d_l := e.cosmo.angular (a "z_l")
  d_s := e.cosmo.angular (a "z_s")
  d_ls := e.cosmo.angular12 (a "z_l") (a "z_s")
  sigmacr := e.cosmo.criticalSurfaceDensity (a "z_l") (a "z_s")
  s := s

/-- lenses/tnfw.py:234-262, 288-339, 371-416, 428-473; `M0` is called with all its arguments. -/
noncomputable def tnfwOf (e : LensEnv) (s : ℝ) (total : Bool) (a : Kw) : TNFWLens where
  interpretTotal := total
  Gc2 := e.cosmo.GOverC2
  x0 := a "x0"
  y0 := a "y0"
  mass := a "mass"
  Rs := a "Rs"
  tau := a "tau"
  s := s
  rhoc := e.rhoc (a "z_l")
  d_l := e.cosmo.angular (a "z_l")
  d_s := e.cosmo.angular (a "z_s")
  d_ls := e.cosmo.angular12 (a "z_l") (a "z_s")
  sigmacr := e.cosmo.criticalSurfaceDensity (a "z_l") (a "z_s")

/-- lenses/pseudo_jaffe.py:286-288, 327-331, 369-373: the class's own `s` is not handed on. -/
noncomputable def pjOf (e : LensEnv) (a : Kw) : PJaffe where
  Gc2 := e.cosmo.GOverC2
  x0 := a "x0"
  y0 := a "y0"
  mass := a "mass"
  Rc := a "Rc"
  Rs := a "Rs"
  d_l := e.cosmo.angular (a "z_l")
  d_s := e.cosmo.angular (a "z_s")
  d_ls := e.cosmo.angular12 (a "z_l") (a "z_s")
  sigmacr := e.cosmo.criticalSurfaceDensity (a "z_l") (a "z_s")
  s := 0

/-- The classes' own `physical_deflection_angle` (lenses/nfw.py:237-279, lenses/tnfw.py:371-416,
lenses/enclosed_mass.py:136-169); `none` for the classes that inherit it.  `a` are the arguments of
the call. -/
noncomputable def ownPhysical (e : LensEnv) (a : Kw) : LensKind → Option (ℝ → ℝ → ℝ × ℝ)
  | nfw s => some (nfwOf e s a).physicalDeflection
  | tnfw s b => some (tnfwOf e s b a).toTNFW.physicalDeflection
  | enclosed s M => some
      (enclosedDeflection e.cosmo.GOverC2 (a "x0") (a "y0") (a "q") (a "phi") (fun r => M r (a "p")) s)
  | _ => none

/-- `reduced_deflection_angle` of each class (lenses/sis.py:130, lenses/point.py:276,
lenses/mass_sheet.py:120, lenses/external_shear.py:207, lenses/sie.py:231, lenses/epl.py:254,
lenses/pseudo_jaffe.py:286-288).  NFW, TNFW and EnclosedMass (lenses/nfw.py:282-288,
lenses/tnfw.py:419-425, lenses/enclosed_mass.py:172-178) take the distances from their arguments `a`
but call `self.physical_deflection_angle(x, y)`, which is filled from the parameters `p`. -/
noncomputable def reduced (e : LensEnv) (p a : Kw) (k : LensKind) (x y : ℝ) : Except PyErr (ℝ × ℝ) :=
  let scaled (v : ℝ × ℝ) : Except PyErr (ℝ × ℝ) :=
    .ok (reducedFromPhysical v (e.cosmo.angular (a "z_s")) (e.cosmo.angular12 (a "z_l") (a "z_s")))
  match k with
  | sis s => .ok (sisDeflection (a "x0") (a "y0") (a "Rein") s x y)
  | point s => .ok (pointDeflection (a "x0") (a "y0") (a "Rein") s x y)
  | sheet => .ok (sheetDeflection (a "x0") (a "y0") (a "kappa") x y)
  | shear => .ok (shearDeflection (a "x0") (a "y0") (a "gamma_1") (a "gamma_2") x y)
  | sie s => .ok (sieDeflection (a "x0") (a "y0") (a "q") (a "phi") (a "Rein") s x y)
  | epl _ n cs => eplDeflection (a "x0") (a "y0") (a "q") (a "phi") (a "Rein") (a "t") n cs x y
  | pseudoJaffe _ => .ok ((pjOf e a).deflection x y)
  | nfw s => scaled ((nfwOf e s p).physicalDeflection x y)
  | tnfw s b => scaled ((tnfwOf e s b p).toTNFW.physicalDeflection x y)
  | enclosed s M => scaled
      (enclosedDeflection e.cosmo.GOverC2 (p "x0") (p "y0") (p "q") (p "phi") (fun r => M r (p "p")) s x y)

/-- `physical_deflection_angle`: a class's own, else lenses/base.py:670-710, which calls
`self.reduced_deflection_angle(x, y)`. -/
noncomputable def physical (e : LensEnv) (p a : Kw) (k : LensKind) (x y : ℝ) : Except PyErr (ℝ × ℝ) :=
  match k.ownPhysical e a with
  | some f => .ok (f x y)
  | none => do
    let v ← k.reduced e p p x y
    pure (physicalFromReduced v (e.cosmo.angular (a "z_s")) (e.cosmo.angular12 (a "z_l") (a "z_s")))

/-- `potential` (lenses/sis.py:164, point.py:310, mass_sheet.py:132, external_shear.py:244, sie.py:267,
epl.py:293, pseudo_jaffe.py:327-331, nfw.py:377-392, tnfw.py:468-473, enclosed_mass.py:188). -/
noncomputable def potential (e : LensEnv) (a : Kw) (k : LensKind) (x y : ℝ) : Except PyErr ℝ :=
  match k with
  | sis s => .ok (sisPotential (a "x0") (a "y0") (a "Rein") s x y)
  | point s => .ok (pointPotential (a "x0") (a "y0") (a "Rein") s x y)
  | sheet => .ok (sheetPotential (a "x0") (a "y0") (a "kappa") x y)
  | shear => .ok (shearPotential (a "x0") (a "y0") (a "gamma_1") (a "gamma_2") x y)
  | sie s => .ok (siePotential (a "x0") (a "y0") (a "q") (a "phi") (a "Rein") s x y)
  | epl _ n cs => eplPotential (a "x0") (a "y0") (a "q") (a "phi") (a "Rein") (a "t") n cs x y
  | pseudoJaffe _ => .ok ((pjOf e a).potential x y)
  | nfw s => .ok ((nfwOf e s a).potential x y)
  | tnfw s b => .ok ((tnfwOf e s b a).toTNFW.potential x y)
  | enclosed _ _ => .error .notImplemented

/-- `convergence` (lenses/sis.py:198, point.py:343, mass_sheet.py:142, external_shear.py:280,
sie.py:303, epl.py:332, pseudo_jaffe.py:369-373, nfw.py:325-340, tnfw.py:325-339,
enclosed_mass.py:227-238); `none` is `nan` or `inf`. -/
noncomputable def convergence (e : LensEnv) (a : Kw) (k : LensKind) (x y : ℝ) : Option ℝ :=
  match k with
  | sis s => some (sisConvergence (a "x0") (a "y0") (a "Rein") s x y)
  | point _ => pointConvergence (a "x0") (a "y0") x y
  | sheet => some (sheetConvergence (a "kappa") x y)
  | shear => some (shearConvergence x y)
  | sie s => some (sieConvergence (a "x0") (a "y0") (a "q") (a "phi") (a "Rein") s x y)
  | epl s _ _ => some (eplConvergence (a "x0") (a "y0") (a "q") (a "phi") (a "Rein") (a "t") s x y)
  | pseudoJaffe _ => some ((pjOf e a).convergence x y)
  | nfw s => (nfwOf e s a).convergence x y
  | tnfw s b => some ((tnfwOf e s b a).toTNFW.convergence x y)
  | enclosed s M => some (enclosedConvergence (a "x0") (a "y0") (a "q") (a "phi") (fun r => M r (a "p"))
      (e.cosmo.criticalSurfaceDensity (a "z_l") (a "z_s")) s x y)

/-- `surface_density`, lenses/base.py:793-824: calls `self.convergence(x, y)`. -/
noncomputable def surfaceDensity (e : LensEnv) (p a : Kw) (k : LensKind) (x y : ℝ) : Option ℝ :=
  (k.convergence e p x y).map (· * e.cosmo.criticalSurfaceDensity (a "z_l") (a "z_s"))

/-- `mass_enclosed_2d`: lenses/pseudo_jaffe.py:179-204, and lenses/tnfw.py:342-368, which calls
`self.M0()`. The other classes have no such method. -/
noncomputable def massEnclosed (e : LensEnv) (p a : Kw) (k : LensKind) (r : ℝ) : Except PyErr ℝ :=
  match k with
  | pseudoJaffe _ => .ok (pjMassEnclosed r (a "mass") (a "Rc") (a "Rs") 0)
  | tnfw s b => .ok (tnfwMassEnclosed r (a "Rs") (a "tau") (tnfwOf e s b p).M0)
  | _ => .error .attributeError

/-- The methods. -/
inductive Method
  | physical
  | reduced
  | raytrace
  | potential
  | convergence
  | surfaceDensity
  | massEnclosed
  deriving DecidableEq

/-- The names a method takes besides the position; `raytrace` (lenses/base.py:827-863) hands its
keywords to `reduced_deflection_angle`. -/
def accepts : LensKind → Method → List String
  | sis _, .reduced | sis _, .raytrace | sis _, .potential | sis _, .convergence => ["x0", "y0", "Rein"]
  | point _, .reduced | point _, .raytrace | point _, .potential => ["x0", "y0", "Rein"]
  | point _, .convergence => ["x0", "y0"]
  | sheet, .reduced | sheet, .raytrace | sheet, .potential => ["x0", "y0", "kappa"]
  | sheet, .convergence => ["kappa"]
  | shear, .reduced | shear, .raytrace | shear, .potential => ["x0", "y0", "gamma_1", "gamma_2"]
  | shear, .convergence => []
  | sie _, .reduced | sie _, .raytrace | sie _, .potential | sie _, .convergence =>
    ["x0", "y0", "q", "phi", "Rein"]
  | epl _ _ _, .reduced | epl _ _ _, .raytrace | epl _ _ _, .potential | epl _ _ _, .convergence =>
    ["x0", "y0", "q", "phi", "Rein", "t"]
  | nfw _, .physical => ["z_l", "x0", "y0", "mass", "c"]
  | nfw _, .reduced | nfw _, .raytrace => ["z_s", "z_l"]
  | nfw _, .potential | nfw _, .convergence => ["z_s", "z_l", "x0", "y0", "mass", "c"]
  | tnfw _ _, .physical => ["z_l", "x0", "y0", "mass", "Rs", "tau"]
  | tnfw _ _, .reduced | tnfw _ _, .raytrace => ["z_s", "z_l"]
  | tnfw _ _, .potential | tnfw _ _, .convergence => ["z_s", "z_l", "x0", "y0", "mass", "Rs", "tau"]
  | tnfw _ _, .massEnclosed => ["Rs", "tau"]
  | pseudoJaffe _, .reduced | pseudoJaffe _, .raytrace | pseudoJaffe _, .potential
  | pseudoJaffe _, .convergence => ["z_s", "z_l", "x0", "y0", "mass", "Rc", "Rs"]
  | pseudoJaffe _, .massEnclosed => ["mass", "Rc", "Rs"]
  | enclosed _ _, .physical => ["x0", "y0", "q", "phi", "p"]
  | enclosed _ _, .reduced | enclosed _ _, .raytrace => ["z_s", "z_l"]
  | enclosed _ _, .convergence => ["z_s", "z_l", "x0", "y0", "q", "phi", "p"]
  | enclosed _ _, .potential => []
  | _, .physical | _, .surfaceDensity => ["z_s", "z_l"]
  | _, .massEnclosed => []

/-- What a method returns: a vector, or a number (`none`: `nan` or `inf`). -/
inductive Out
  | vec (v : ℝ × ℝ)
  | num (v : Option ℝ)

/-- The arguments a `@forward` method sees: what the caller passed by name, else the parameters. -/
def fill (p : Kw) (ov : List (String × ℝ)) : Kw := fun n => (ov.lookup n).getD (p n)

/-- Calling a method with some arguments passed by name.  For `massEnclosed` the position is the
radius (`x`). -/
noncomputable def call (e : LensEnv) (k : LensKind) (m : Method) (p : Kw) (ov : List (String × ℝ))
    (x y : ℝ) : Except PyErr Out :=
  if ov.any (fun o => o.1 ∉ k.accepts m) then .error .typeError
  else
    let a := fill p ov
    match m with
    | .physical => (k.physical e p a x y).map .vec
    | .reduced => (k.reduced e p a x y).map .vec
    | .raytrace => (k.reduced e p a x y).map fun v => .vec (x - v.1, y - v.2)
    | .potential => (k.potential e a x y).map fun v => .num (some v)
    | .convergence => .ok (.num (k.convergence e a x y))
    | .surfaceDensity => .ok (.num (k.surfaceDensity e p a x y))
    | .massEnclosed => (k.massEnclosed e p a x).map fun v => .num (some v)

end LensKind

end Caustics
