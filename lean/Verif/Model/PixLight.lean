import Verif.Model.Interp

/-!
Pixelated sources and deflection maps: light/pixelated.py, light/pixelated_time.py and
lenses/pixelated_deflection.py, for one query point (the flattening `view(-1)` and the final
`reshape(x.shape)` act point by point).

Arrays carry their number of dimensions because the constructors and the interpolators test it.
-/

namespace Caustics

variable {K : Type*}

/-- An array with as much of its shape as the code looks at. -/
inductive NDArr (K : Type*) where
  | d2 {h w : ℕ} (a : Fin h → Fin w → K)
  | d3 {d h w : ℕ} (a : Fin d → Fin h → Fin w → K)
  | d4 {c d h w : ℕ} (a : Fin c → Fin d → Fin h → Fin w → K)
  /-- Any other number of dimensions. -/
  | other (ndim : ℕ)

def NDArr.ndim : NDArr K → ℕ
  | .d2 _ => 2
  | .d3 _ => 3
  | .d4 _ => 4
  | .other n => n

/-- light/pixelated.py:119-134: the checks of the constructor; `shape` is given by its length. -/
def pixelatedInit (image : Option (NDArr K)) (shapeLen : Option ℕ) : Except PyErr Unit :=
  match image, shapeLen with
  | some a, l =>
    if a.ndim ∉ [2, 3] then .error .valueError
    else match l with
      | some n => if n ∉ [2, 3] then .error .valueError else .ok ()
      | none => .ok ()
  | none, some n => if n ∉ [2, 3] then .error .valueError else .ok ()
  | none, none => .ok ()

/-- light/pixelated_time.py:127-141. -/
def pixelatedTimeInit (cube : Option (NDArr K)) (shapeLen : Option ℕ) : Except PyErr Unit :=
  match cube, shapeLen with
  | some a, l =>
    if a.ndim ∉ [3, 4] then .error .valueError
    else match l with
      | some n => if n ∉ [3, 4] then .error .valueError else .ok ()
      | none => .ok ()
  | none, some n => if n ∉ [3, 4] then .error .valueError else .ok ()
  | none, none => .ok ()

/-- lenses/pixelated_deflection.py:96-112. -/
def pixelatedDeflectionInit (map : Option (NDArr K)) (shapeLen : Option ℕ) : Except PyErr Unit :=
  match map, shapeLen with
  | some a, l =>
    if a.ndim ≠ 3 then .error .valueError
    else match l with
      | some n => if n ≠ 3 then .error .valueError else .ok ()
      | none => .ok ()
  | none, some n => if n ≠ 3 then .error .valueError else .ok ()
  | none, none => .ok ()

variable [Field K] [LinearOrder K] [FloorRing K]

/-- `Pixelated.brightness`, light/pixelated.py:136-186; `interp2d` is called with its default
`method="linear"` (utils.py:868).  An image that is not two-dimensional is rejected by
`interp2d` (utils.py:913-914). -/
def pixelatedBrightness (image : NDArr K) (x0 y0 pixelscale scale : K) (x y : K)
    (padding : String := "zeros") : Except PyErr K :=
  match image with
  | .d2 (h := h) (w := w) im =>
    let fovX := pixelscale * (w : K)
    let fovY := pixelscale * (h : K)
    interp2d (fun i j => im i j * scale) ((x - x0) / fovX * 2) ((y - y0) / fovY * 2) "linear" padding
  | .d3 _ => .error .valueError
  | .d4 _ => .error .valueError
  | .other n => if n < 2 then .error .indexError else .error .valueError

/-- `PixelatedTime.brightness`, light/pixelated_time.py:143-196; `interp3d` with its defaults
`method="linear", padding_mode="zeros"` (utils.py:964-971). -/
def pixelatedTimeBrightness (cube : NDArr K) (x0 y0 pixelscale tEnd scale : K) (x y t : K) :
    Except PyErr K :=
  match cube with
  | .d3 (d := _) (h := h) (w := w) cu =>
    let fovX := pixelscale * (w : K)
    let fovY := pixelscale * (h : K)
    interp3d (fun k i j => cu k i j * scale) ((x - x0) / fovX * 2) ((y - y0) / fovY * 2)
      ((t - tEnd / 2) / tEnd * 2) "linear" "zeros"
  | .d2 _ => .error .indexError
  | .d4 _ => .error .valueError
  | .other n => if n < 3 then .error .indexError else .error .valueError

/-- `PixelatedDeflection.reduced_deflection_angle`, lenses/pixelated_deflection.py:114-155;
`interp2d` with its defaults `method="linear", padding_mode="zeros"`.  A map with fewer than two
leading entries fails on `deflection_map[1]`. -/
def pixelatedDeflection (map : NDArr K) (x0 y0 pixelscale : K) (x y : K) : Except PyErr (K × K) :=
  match map with
  | .d3 (d := d) (h := h) (w := w) m =>
    let fovX := (w : K) * pixelscale
    let fovY := (h : K) * pixelscale
    let x' := (x - x0) / fovX * 2
    let y' := (y - y0) / fovY * 2
    if hd : 2 ≤ d then do
      let ax ← interp2d (m ⟨0, by omega⟩) x' y' "linear" "zeros"
      let ay ← interp2d (m ⟨1, by omega⟩) x' y' "linear" "zeros"
      pure (ax, ay)
    else .error .indexError
  | .d2 _ => .error .indexError
  | .d4 _ => .error .valueError
  | .other n => if n < 3 then .error .indexError else .error .valueError

/-- `PixelatedDeflection.potential` and `.convergence`, lenses/pixelated_deflection.py:157-167. -/
def pixelatedDeflectionPotential (_map : NDArr K) (_x _y : K) : Except PyErr K :=
  .error .notImplemented

/-- lenses/singleplane.py:92-98, 130-134 and 166-170, the loop of a `SinglePlane` over what its members return or raise at one
position; one component of the deflection, the convergence or the potential. -/
def planeLoop (members : List (Except PyErr K)) : Except PyErr K :=
  members.foldlM (fun acc r => r.map (acc + ·)) 0

/-- lenses/base.py:826-860 `ThinLens.raytrace` with this deflection: `x - α`. -/
def pixelatedDeflectionRaytrace (map : NDArr K) (x0 y0 pixelscale : K) (x y : K) :
    Except PyErr (K × K) := do
  let a ← pixelatedDeflection map x0 y0 pixelscale x y
  pure (x - a.1, y - a.2)

end Caustics
