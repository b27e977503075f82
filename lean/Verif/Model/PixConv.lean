import Verif.Model.FFT
import Verif.Model.Grid
import Verif.Model.Interp
import Mathlib.Analysis.SpecialFunctions.Log.Basic

/-!
`lenses/func/pixelated_convergence.py` and `lenses/pixelated_convergence.py`: a lens given by a square
convergence map, evaluated by convolution with the deflection and potential kernels.

`fast` is `scipy.fft.next_fast_len`.  Positions are single points; the `view`/`reshape` around `interp2d`
for batches of points is not modelled, nor is the transfer between devices and dtypes (`to`).
-/

namespace Caustics

/-- utils.py:758-774 `safe_divide`. -/
noncomputable def safeDivide (num denom : ℝ) : ℝ := if denom ≠ 0 then num / denom else 0

/-- utils.py:777-791 `safe_log`. -/
noncomputable def safeLog (x : ℝ) : ℝ := if x ≠ 0 then Real.log x else 0

/-- lenses/func/pixelated_convergence.py:7-43 `build_kernels_pixelated_convergence`: kernels for the two
components of the deflection and for the potential, on a grid of twice the size. -/
noncomputable def buildKernels (ps : ℝ) (n : ℕ) : Img × Img × Img :=
  let mg := meshgrid ps (2 * n) none
  let x (i j : ℕ) : ℝ := (mg.1.getD i []).getD j 0
  let y (i j : ℕ) : ℝ := (mg.2.getD i []).getD j 0
  let d2 (i j : ℕ) : ℝ := x i j ^ 2 + y i j ^ 2
  (⟨2 * n, 2 * n, fun i j => safeDivide (x i j) (d2 i j)⟩,
    ⟨2 * n, 2 * n, fun i j => safeDivide (y i j) (d2 i j)⟩,
    ⟨2 * n, 2 * n, fun i j => safeLog (Real.sqrt (d2 i j))⟩)

/-- lenses/func/pixelated_convergence.py:46-72 `build_window_pixelated_convergence` for a kernel of `k`
rows and columns. -/
noncomputable def buildWindow (window : ℝ) (k : ℕ) : Img where
  h := k
  w := k
  at' i j :=
    let mg := meshgridXY (linspace (-1 : ℝ) 1 k) (linspace (-1) 1 k)
    let x := (mg.1.getD i []).getD j 0
    let y := (mg.2.getD i []).getD j 0
    let r := Real.sqrt (x ^ 2 + y ^ 2)
    min (max ((1 - r) / window) 0) 1

/-- Elementwise product. -/
noncomputable def Img.mul (x y : Img) : Img := { x with at' := fun i j => x.at' i j * y.at' i j }

/-- Product with a number. -/
noncomputable def Img.scale (x : Img) (c : ℝ) : Img := { x with at' := fun i j => x.at' i j * c }

/-- lenses/func/pixelated_convergence.py:75-78 `_fft_size`, one component. -/
def fftSize (fast : ℕ → ℕ) (n : ℕ) : ℕ := fast (2 * n)

/-- The padded map, lenses/func/pixelated_convergence.py:100-109, for a map with `n` rows and columns.  The
padding adds `n - 1` samples behind: `reflect` mirrors them without repeating the edge, `circular` starts
over.  For `n = 1` the `squeeze` in these two branches removes all dimensions and the transform fails
(IndexError with torch). -/
def padMap (x : Img) (n : ℕ) (padding : String) : Except PyErr Img :=
  if padding = "zero" then .ok x
  else if padding = "reflect" ∨ padding = "circular" then
    if n = 1 then .error .indexError
    else
      let idx (k : ℕ) : ℕ := if k < n then k else if padding = "reflect" then 2 * n - 2 - k else k - n
      .ok ⟨x.h + (n - 1), x.w + (n - 1), fun i j => x.at' (idx i) (idx j)⟩
  else if padding = "tile" then .ok ⟨2 * x.h, 2 * x.w, fun i j => x.at' (i % x.h) (j % x.w)⟩
  else .error .valueError

/-- lenses/func/pixelated_convergence.py:81-111 `_fft2_padded`. -/
noncomputable def fft2Padded (fast : ℕ → ℕ) (x : Img) (n : ℕ) (padding : String) : Except PyErr (ℕ → ℕ → ℂ) :=
  match padMap x n padding with
  | .error e => .error e
  | .ok y => .ok (rfft2 y (fftSize fast n) (fftSize fast n))

/-- lenses/func/pixelated_convergence.py:114-130 `_unpad_fft`.  `-_s[0] // 2` is the floor of `-s / 2`. -/
def unpadFft (fast : ℕ → ℕ) (x : Img) (n : ℕ) : Img :=
  (x.roll (-(fftSize fast n : ℤ) / 2) (-(fftSize fast n : ℤ) / 2)).slice 0 n 0 n

/-- A kernel as the lens stores it for the current mode: its spectrum or the kernel itself. -/
inductive KernelTilde where
  | spectrum (f : ℕ → ℕ → ℂ)
  | direct (k : Img)

/-- The map of one component, lenses/func/pixelated_convergence.py:211-235 (deflection) and 321-338
(potential, same steps).  A spectrum used with `conv2d`, or a kernel used with `fft`, is an array of the
wrong shape. -/
noncomputable def convMap (fast : ℕ → ℕ) (κ : Img) (k : KernelTilde) (ps : ℝ) (n : ℕ) (padding mode : String) :
    Except PyErr Img :=
  if mode = "fft" then
    match fft2Padded fast κ n padding, k with
    | .error e, _ => .error e
    | .ok F, .spectrum G =>
      .ok (unpadFft fast ((irfft2 (fun u v => F u v * G u v) (fftSize fast n) (fftSize fast n)).scale (ps ^ 2 / Real.pi)) n)
    | .ok _, .direct _ => .error .valueError
  else if mode = "conv2d" then
    match k with
    | .direct K => .ok ((conv2dSame K κ.flip).scale (ps ^ 2 / Real.pi))
    | .spectrum _ => .error .valueError
  else .error .valueError

/-- The array as `interp2d` takes it. -/
def Img.toFin (x : Img) (i : Fin x.h) (j : Fin x.w) : ℝ := x.at' i j

/-- `interp2d(map, (x - x0) / (fov / 2), (y - y0) / (fov / 2))` with the default method and padding. -/
noncomputable def readMap (m : Img) (x0 y0 fov x y : ℝ) : Except PyErr ℝ :=
  interp2d m.toFin ((x - x0) / (fov / 2)) ((y - y0) / (fov / 2)) "linear" "zeros"

/-- lenses/func/pixelated_convergence.py:133-246 `reduced_deflection_angle_pixelated_convergence`. -/
noncomputable def deflectionPixConv (fast : ℕ → ℕ) (x0 y0 : ℝ) (κ : Img) (x y : ℝ) (ax ay : KernelTilde) (ps fov : ℝ)
    (n : ℕ) (padding mode : String) : Except PyErr (ℝ × ℝ) := do
  let mx ← convMap fast κ ax ps n padding mode
  let my ← convMap fast κ ay ps n padding mode
  let a ← readMap mx x0 y0 fov x y
  let b ← readMap my x0 y0 fov x y
  return (a, b)

/-- lenses/func/pixelated_convergence.py:249-344 `potential_pixelated_convergence`. -/
noncomputable def potentialPixConv (fast : ℕ → ℕ) (x0 y0 : ℝ) (κ : Img) (x y : ℝ) (pk : KernelTilde) (ps fov : ℝ)
    (n : ℕ) (padding mode : String) : Except PyErr ℝ := do
  let m ← convMap fast κ pk ps n padding mode
  readMap m x0 y0 fov x y

/-- The lens object, lenses/pixelated_convergence.py: what the constructor stores. -/
structure PixLens where
  n : ℕ
  ps : ℝ
  padding : String
  ax : Img
  ay : Img
  pot : Img
  axTilde : Option KernelTilde
  ayTilde : Option KernelTilde
  potTilde : Option KernelTilde
  mode : Option String

/-- lenses/pixelated_convergence.py:233-262, setter of `convolution_mode`. -/
noncomputable def PixLens.setMode (fast : ℕ → ℕ) (l : PixLens) (mode : String) : PixLens × Option PyErr :=
  let s := fftSize fast l.n
  if mode = "fft" then
    ({ l with
        potTilde := some (.spectrum (rfft2 l.pot s s))
        axTilde := some (.spectrum (rfft2 l.ax s s))
        ayTilde := some (.spectrum (rfft2 l.ay s s))
        mode := some mode }, none)
  else if mode = "conv2d" then
    ({ l with
        potTilde := some (.direct l.pot)
        axTilde := some (.direct l.ax)
        ayTilde := some (.direct l.ay)
        mode := some mode }, none)
  else (l, some .valueError)

/-- lenses/pixelated_convergence.py:147-189, the constructor for a map of `rows` by `cols` pixels.
`use_next_fast_len` is stored and never read. -/
noncomputable def PixLens.new (fast : ℕ → ℕ) (ps : ℝ) (rows cols : ℕ) (mode padding : String) (window : ℝ) :
    Except PyErr PixLens :=
  if rows ≠ cols then .error .assertionError
  else
    let n := rows
    let ks := buildKernels ps n
    let win := buildWindow window (2 * n)
    let windowed := padding ≠ "zero" ∧ mode = "fft" ∧ window > 0
    let ax := if windowed then ks.1.mul win else ks.1
    let ay := if windowed then ks.2.1.mul win else ks.2.1
    match PixLens.setMode fast ⟨n, ps, padding, ax, ay, ks.2.2, none, none, none, none⟩ mode with
    | (l, none) => .ok l
    | (_, some e) => .error e

/-- lenses/pixelated_convergence.py:264-315 `reduced_deflection_angle`. -/
noncomputable def PixLens.deflection (fast : ℕ → ℕ) (l : PixLens) (x y x0 y0 : ℝ) (κ : Img) (scale : ℝ) :
    Except PyErr (ℝ × ℝ) :=
  match l.axTilde, l.ayTilde, l.mode with
  | some ax, some ay, some mode =>
    deflectionPixConv fast x0 y0 (κ.scale scale) x y ax ay l.ps (l.n * l.ps) l.n l.padding mode
  | _, _, _ => .error .attributeError

/-- lenses/pixelated_convergence.py:317-363 `potential`. -/
noncomputable def PixLens.potential (fast : ℕ → ℕ) (l : PixLens) (x y x0 y0 : ℝ) (κ : Img) (scale : ℝ) :
    Except PyErr ℝ :=
  match l.potTilde, l.mode with
  | some pk, some mode =>
    potentialPixConv fast x0 y0 (κ.scale scale) x y pk l.ps (l.n * l.ps) l.n l.padding mode
  | _, _ => .error .attributeError

/-- lenses/pixelated_convergence.py:365-404 `convergence`. -/
noncomputable def PixLens.convergence (l : PixLens) (x y x0 y0 : ℝ) (κ : Img) (scale : ℝ) : Except PyErr ℝ :=
  let fovX : ℝ := κ.w * l.ps
  let fovY : ℝ := κ.h * l.ps
  interp2d (κ.scale scale).toFin ((x - x0) / fovX * 2) ((y - y0) / fovY * 2) "linear" "zeros"

end Caustics
