import Mathlib.Data.Real.Basic
import Mathlib.Logic.Function.Basic

/-! # Moving objects between devices and precisions

Every object of the package has a method `to(device=None, dtype=None)`. It is inherited from caskade's `Module`, which
calls `to` on each child (parameters and sub-objects), and extended by the classes that hold arrays which are no
parameters: `FlatLambdaCDM` (FlatLambdaCDM.py:81-90), `Multipole` (multipole.py:86-106), `PixelatedConvergence`
(pixelated_convergence.py:191-217) and `LensSource` (sims/lens_source.py:182-187).

Objects live in a store, numbered so that children come before their parents; an object may have several parents (one
cosmology serves all lenses). Of caskade the model assumes what is written above: a module calls `to` on its children, in
order, and returns itself; a parameter converts its value if it has one.

Simplifications: an array is a flat list of numbers with a device, an element type and a flag telling whether it has
dimension 0. Devices are numbered, 0 is the CPU. Rounding to an element type is any map that does nothing the second time
and for which double precision keeps every single precision number. Fourier transforms and the numbers on the grid are
arbitrary functions. -/

namespace Caustics

namespace Dev

/-- Element types in use: float32, float64, complex64, complex128, int32. -/
inductive DType where
  | f32
  | f64
  | c64
  | c128
  | i32
  deriving DecidableEq, Repr

structure TArr where
  dev : ℕ
  dt : DType
  dim0 : Bool
  data : List ℝ

/-- What the array library supplies. `defDev`, `defDt`: device and element type of arrays created without naming any.
`grid`: the numbers `_build_grid` puts into `_grid[0]`, `_grid[1]`, `_weights` for given settings. -/
structure Lib (Cfg : Type) where
  rnd : DType → ℝ → ℝ
  idem : ∀ t x, rnd t (rnd t x) = rnd t x
  widen : ∀ x, rnd .f64 (rnd .f32 x) = rnd .f32 x
  fft : List ℝ → List ℝ
  defDev : ℕ
  defDt : DType
  grid : Cfg → List ℝ × List ℝ × List ℝ

/-- `backend.to(array, dtype=dtype, device=device)` (backend_obj.py:212-218). -/
def backendTo {Cfg : Type} (L : Lib Cfg) (dev : Option ℕ) (dt : Option DType) (a : TArr) : TArr where
  dev := dev.getD a.dev
  dt := dt.getD a.dt
  dim0 := a.dim0
  data := match dt with
    | some t => a.data.map (L.rnd t)
    | none => a.data

/-- `backend.fft.rfft2` of a real array: complex of the same precision, on the same device. -/
def rfft2 {Cfg : Type} (L : Lib Cfg) (a : TArr) : TArr where
  dev := a.dev
  dt := match a.dt with
    | .f32 => .c64
    | .f64 => .c128
    | t => t
  dim0 := false
  data := L.fft a.data

inductive ConvMode where
  | fft
  | conv2d
  deriving DecidableEq, Repr

/-- The arrays an object holds besides those of its children. `plain`: all classes that define no `to` of their own. The
`lensSource` also names its parameters `x0`, `y0`, which are among its children. -/
inductive Own (Cfg : Type) where
  | plain
  | param (value : Option TArr)
  | cosmology (xGrid yGrid : TArr)
  | multipole (m : TArr)
  | pixConv (pot ax ay : TArr) (potT axT ayT : Option TArr) (mode : ConvMode) (map : ℕ)
  | lensSource (gx gy w : TArr) (cfg : Cfg) (x0 y0 : ℕ)

/-- The arrays held. -/
def Own.arrays {Cfg : Type} : Own Cfg → List TArr
  | .plain => []
  | .param v => v.toList
  | .cosmology xg yg => [xg, yg]
  | .multipole m => [m]
  | .pixConv pot ax ay potT axT ayT _ _ => pot :: ax :: ay :: (potT.toList ++ axT.toList ++ ayT.toList)
  | .lensSource gx gy w _ _ _ => [gx, gy, w]

structure Obj (Cfg : Type) where
  own : Own Cfg
  children : List ℕ

abbrev Store (Cfg : Type) := ℕ → Obj Cfg

/-- The part of `to` that concerns the object itself: FlatLambdaCDM.py:83-88, multipole.py:105,
pixelated_convergence.py:205-217 (the Fourier kernels get the device only), lens_source.py:184-185, and the value of a
parameter. -/
def ownTo {Cfg : Type} (L : Lib Cfg) (dev : Option ℕ) (dt : Option DType) : Own Cfg → Own Cfg
  | .plain => .plain
  | .param v => .param (v.map (backendTo L dev dt))
  | .cosmology xg yg => .cosmology (backendTo L dev dt xg) (backendTo L dev dt yg)
  | .multipole m => .multipole (backendTo L dev (some .i32) m)
  | .pixConv pot ax ay potT axT ayT mode map =>
    .pixConv (backendTo L dev dt pot) (backendTo L dev dt ax) (backendTo L dev dt ay)
      (potT.map (backendTo L dev none)) (axT.map (backendTo L dev none)) (ayT.map (backendTo L dev none)) mode map
  | .lensSource gx gy w cfg x0 y0 =>
    .lensSource (backendTo L dev dt gx) (backendTo L dev dt gy) (backendTo L dev dt w) cfg x0 y0

/-- `obj.to(device, dtype)`: first `super().to` (every child), then the arrays of the object itself. The number bounds
the depth of the recursion; children have smaller numbers than their parents, so `i + 1` is enough for object `i`. -/
def toRec {Cfg : Type} (L : Lib Cfg) (dev : Option ℕ) (dt : Option DType) : ℕ → Store Cfg → ℕ → Store Cfg
  | 0, s, _ => s
  | n + 1, s, i =>
    let s' := (s i).children.foldl (fun s c => toRec L dev dt n s c) s
    Function.update s' i { s' i with own := ownTo L dev dt (s' i).own }

def objTo {Cfg : Type} (L : Lib Cfg) (dev : Option ℕ) (dt : Option DType) (s : Store Cfg) (i : ℕ) : Store Cfg :=
  toRec L dev dt (i + 1) s i

/-- What the call `obj.to(...)` returns: the object, except for `PixelatedConvergence`, whose `to` ends without a
`return` (pixelated_convergence.py:191-217). -/
def toReturns {Cfg : Type} (s : Store Cfg) (i : ℕ) : Option ℕ :=
  match (s i).own with
  | .pixConv .. => none
  | _ => some i

/-- `lens.convolution_mode = mode` (pixelated_convergence.py:233-263). -/
def setMode {Cfg : Type} (L : Lib Cfg) (mode : ConvMode) : Own Cfg → Own Cfg
  | .pixConv pot ax ay _ _ _ _ map =>
    match mode with
    | .fft => .pixConv pot ax ay (some (rfft2 L pot)) (some (rfft2 L ax)) (some (rfft2 L ay)) .fft map
    | .conv2d => .pixConv pot ax ay (some pot) (some ax) (some ay) .conv2d map
  | o => o

/-- `LensSource._build_grid` (lens_source.py:262-294): `meshgrid` is called without device and element type. -/
def buildGrid {Cfg : Type} (L : Lib Cfg) (cfg : Cfg) (x0 y0 : ℕ) : Own Cfg :=
  .lensSource ⟨L.defDev, L.defDt, false, (L.grid cfg).1⟩ ⟨L.defDev, L.defDt, false, (L.grid cfg).2.1⟩
    ⟨L.defDev, L.defDt, false, (L.grid cfg).2.2⟩ cfg x0 y0

/-- Assigning to a setting of a `LensSource` (`pixelscale`, `pixels_x`, `upsample_factor`, ...; lens_source.py:193-260):
store it, then `_build_grid`. -/
def setSim {Cfg : Type} (L : Lib Cfg) (cfg : Cfg) : Own Cfg → Own Cfg
  | .lensSource _ _ _ _ x0 y0 => buildGrid L cfg x0 y0
  | o => o

/-- What a user does with objects: convert one, assign a convolution mode, assign a setting of a simulator. -/
inductive Op (Cfg : Type) where
  | move (i : ℕ) (dev : Option ℕ) (dt : Option DType)
  | mode (i : ℕ) (m : ConvMode)
  | sim (i : ℕ) (cfg : Cfg)

def step {Cfg : Type} (L : Lib Cfg) (s : Store Cfg) : Op Cfg → Store Cfg
  | .move i dev dt => objTo L dev dt s i
  | .mode i m => Function.update s i { s i with own := setMode L m (s i).own }
  | .sim i cfg => Function.update s i { s i with own := setSim L cfg (s i).own }

def run {Cfg : Type} (L : Lib Cfg) (s : Store Cfg) (ops : List (Op Cfg)) : Store Cfg := ops.foldl (step L) s

/-- The device of the result of an operation on two arrays, `none` if torch raises: they must be on the same device, or
one is a 0-dimensional array on the CPU. -/
def meet (a b : TArr) : Option ℕ :=
  if a.dev = b.dev then some a.dev
  else if a.dim0 && a.dev == 0 then some b.dev
  else if b.dim0 && b.dev == 0 then some a.dev
  else none

/-- The value of a parameter object. -/
def paramValue {Cfg : Type} (s : Store Cfg) (i : ℕ) : Option TArr :=
  match (s i).own with
  | .param v => v
  | _ => none

/-- The first statement of `LensSource.__call__` (lens_source.py:370): `grid = (_grid[0] + x0, _grid[1] + y0)`. -/
def simGrid {Cfg : Type} (s : Store Cfg) (i : ℕ) : Option (ℕ × ℕ) :=
  match (s i).own with
  | .lensSource gx gy _ _ x0 y0 => do
    let vx ← paramValue s x0
    let vy ← paramValue s y0
    let a ← meet gx vx
    let b ← meet gy vy
    pure (a, b)
  | _ => none

/-- Element type of `irfft2(rfft2(map) * kernel)`: double precision as soon as one of the two has it. -/
def productType (a b : DType) : DType :=
  if a = .c128 ∨ b = .c128 then .f64 else .f32

/-- `convergence_tilde * kernels` in `reduced_deflection_angle_pixelated_convergence`
(func/pixelated_convergence.py:217-223): device and element type of the x deflection map in mode `fft`; in mode `conv2d`
the kernel is converted to the type of the map (224-233). -/
def deflectionMap {Cfg : Type} (L : Lib Cfg) (s : Store Cfg) (i : ℕ) : Option (ℕ × DType) :=
  match (s i).own with
  | .pixConv _ _ _ _ (some axT) _ mode map => do
    let v ← paramValue s map
    let d ← meet v axT
    match mode with
    | .fft => pure (d, productType (rfft2 L v).dt axT.dt)
    | .conv2d => pure (d, v.dt)
  | _ => none

end Dev

end Caustics
