import Verif.Model.FFT
import Verif.Model.Grid
import Verif.Model.Py

/-!
The image simulator `sims/lens_source.py`.

Pixel counts are natural numbers (negative ones are not modelled).  Devices, dtypes and `chunk_size`
(evaluation in pieces, C03) are not modelled.  `psf_shape` is a tuple of any length.
Parameters of the model: `fast` is `scipy.fft.next_fast_len` and `legendre n` is what
`scipy.special.roots_legendre(n)` returns (abscissa, weight).
-/

namespace Caustics

/-- The two library functions the grid depends on. -/
structure SimLib where
  fast : ℕ → ℕ
  legendre : ℕ → List (ℝ × ℝ)

/-- The settings, sims/lens_source.py:157-177. -/
structure SimCfg where
  psfMode : String
  psfShape : List ℕ
  pixelscale : ℝ
  pixelsX : ℕ
  pixelsY : ℕ
  upsample : ℕ
  quadLevel : Option ℕ

/-- What `_build_grid` computes, sims/lens_source.py:262-295: `_psf_pad`, `_n_pix`, `_grid` (rows,
columns, sub-pixels), `_weights`, `_s`. -/
structure SimGrid where
  psfPad : ℕ × ℕ
  nPix : ℕ × ℕ
  grid : List (List (List (ℝ × ℝ)))
  weights : List ℝ
  s : ℕ × ℕ

/-- The simulator object. -/
structure Sim where
  cfg : SimCfg
  g : SimGrid

/-- The sub-pixel positions of one pixel and the weights, sims/lens_source.py:282-292. -/
noncomputable def simSub (lib : SimLib) (quad : Option ℕ) (p X Y : ℝ) : List (ℝ × ℝ) :=
  match quad with
  | some q => if q > 1 then (quadGrid (lib.legendre q) p X Y).map (fun t => (t.1, t.2.1)) else [(X, Y)]
  | none => [(X, Y)]

/-- See `simSub`. -/
noncomputable def simWeights (lib : SimLib) (quad : Option ℕ) (p : ℝ) : List ℝ :=
  match quad with
  | some q => if q > 1 then (quadTable (lib.legendre q) p).map (fun t => t.2.2) else [1]
  | none => [1]

/-- sims/lens_source.py:262-295 `_build_grid`, statement by statement: what was assigned before an
exception stays assigned.  `psf_shape[1]` of a shorter tuple raises, and so does the division by
`upsample_factor = 0` (which the constructor lets through). -/
noncomputable def Sim.build (lib : SimLib) (x : Sim) : Sim × Option PyErr :=
  match x.cfg.psfShape with
  | k0 :: k1 :: _ =>
    let pad := (k1 / 2, k0 / 2)
    let nPix := (x.cfg.pixelsX * x.cfg.upsample + pad.1 * 2, x.cfg.pixelsY * x.cfg.upsample + pad.2 * 2)
    let x1 : Sim := { x with g := { x.g with psfPad := pad, nPix := nPix } }
    if x.cfg.upsample = 0 then (x1, some .zeroDivision)
    else
      let p := x.cfg.pixelscale / x.cfg.upsample
      let XY := meshgrid p nPix.1 (some nPix.2)
      ({ x1 with g := { x1.g with
          grid := List.zipWith (List.zipWith (simSub lib x.cfg.quadLevel p)) XY.1 XY.2
          weights := simWeights lib x.cfg.quadLevel p
          s := (lib.fast nPix.1, lib.fast nPix.2) } }, none)
  | _ => (x, some .indexError)

/-- sims/lens_source.py:114-180: the constructor; nothing is left when it raises.  (The attributes
that `_build_grid` sets do not exist before; the placeholders are never read.) -/
noncomputable def Sim.new (lib : SimLib) (cfg : SimCfg) : Except PyErr Sim :=
  match Sim.build lib ⟨cfg, ⟨(0, 0), (0, 0), [], [], (0, 0)⟩⟩ with
  | (x, none) => .ok x
  | (_, some e) => .error e

/-- The property assignments, sims/lens_source.py:193-260. -/
inductive SimOp where
  | upsample (v : ℤ)
  | pixelsX (v : ℕ)
  | pixelsY (v : ℕ)
  | quadLevel (v : Option ℤ)
  | pixelscale (v : ℝ)
  | psfShape (v : List ℕ)
  | psfMode (v : String)

/-- One assignment: the new state and the exception if one was raised. -/
noncomputable def Sim.assign (lib : SimLib) (x : Sim) : SimOp → Sim × Option PyErr
  | .upsample v =>
    if v > 0 then Sim.build lib { x with cfg := { x.cfg with upsample := v.toNat } }
    else (x, some .assertionError)
  | .pixelsX v => Sim.build lib { x with cfg := { x.cfg with pixelsX := v } }
  | .pixelsY v => Sim.build lib { x with cfg := { x.cfg with pixelsY := v } }
  | .quadLevel none => Sim.build lib { x with cfg := { x.cfg with quadLevel := none } }
  | .quadLevel (some v) =>
    if v > 0 then Sim.build lib { x with cfg := { x.cfg with quadLevel := some v.toNat } }
    else (x, some .assertionError)
  | .pixelscale v => Sim.build lib { x with cfg := { x.cfg with pixelscale := v } }
  | .psfShape v => Sim.build lib { x with cfg := { x.cfg with psfShape := v } }
  | .psfMode v =>
    if v = "fft" ∨ v = "conv2d" then Sim.build lib { x with cfg := { x.cfg with psfMode := v } }
    else (x, some .assertionError)

/-- What the call is given besides the settings: the lens map, the light models (`none` if absent), the
PSF, the field centre and the switches, sims/lens_source.py:330-340. -/
structure SimScene where
  raytrace : ℝ → ℝ → ℝ × ℝ
  source : Option (ℝ → ℝ → ℝ)
  lensLight : Option (ℝ → ℝ → ℝ)
  psf : Img
  x0 : ℝ
  y0 : ℝ
  sourceLight : Bool := true
  addLensLight : Bool := true
  lensSource : Bool := true
  psfConvolve : Bool := true

/-- Brightness integrated over the sub-pixels of every pixel of the padded grid,
`gaussian_quadrature_integrator(brightness(grid), weights)`. -/
noncomputable def SimGrid.sample (g : SimGrid) (f : ℝ → ℝ → ℝ) (x0 y0 : ℝ) : Img where
  h := g.nPix.2
  w := g.nPix.1
  at' i j := quadIntegrate (((g.grid.getD i []).getD j []).map fun t => f (t.1 + x0) (t.2 + y0)) g.weights

/-- sims/lens_source.py:362-400: the image before the PSF. -/
noncomputable def Sim.scene (x : Sim) (c : SimScene) : Img :=
  let mu : Img := match c.source, c.sourceLight with
    | some f, true =>
      if c.lensSource then
        x.g.sample (fun a b => f (c.raytrace a b).1 (c.raytrace a b).2) c.x0 c.y0
      else x.g.sample f c.x0 c.y0
    | _, _ => ⟨x.g.nPix.2, x.g.nPix.1, fun _ _ => 0⟩
  match c.lensLight, c.addLensLight with
  | some f, true => { mu with at' := fun i j => mu.at' i j + (x.g.sample f c.x0 c.y0).at' i j }
  | _, _ => mu

/-- sims/lens_source.py:402-420: the convolution.  An unknown `psf_mode`, which the constructor does not
reject, does nothing. -/
noncomputable def Sim.convolve (x : Sim) (psf mu : Img) : Img :=
  if x.cfg.psfMode = "fft" then
    let s := x.g.s
    ((irfft2 (fun u v => rfft2 mu s.1 s.2 u v * rfft2 (psf.div psf.sum) s.1 s.2 u v) s.1 s.2).roll
      (-x.g.psfPad.1) (-x.g.psfPad.2)).slice 0 s.1 0 s.2
  else if x.cfg.psfMode = "conv2d" then conv2dSame mu (psf.flip.div psf.sum)
  else mu

/-- sims/lens_source.py:367-368 and 402-432: PSF, clipping and downsampling of an image on the padded
grid. -/
noncomputable def Sim.finish (x : Sim) (psfConvolve : Bool) (psf mu : Img) : Img :=
  let psfConvolve := if psf.h = 1 ∧ psf.w = 1 then false else psfConvolve
  let mu := if psfConvolve then x.convolve psf mu else mu
  let pad := x.g.psfPad
  (mu.slice pad.2 (x.cfg.pixelsY * x.cfg.upsample + pad.2) pad.1
    (x.cfg.pixelsX * x.cfg.upsample + pad.1)).avgPool x.cfg.upsample

/-- sims/lens_source.py:330-432 `__call__`. -/
noncomputable def Sim.call (x : Sim) (c : SimScene) : Img := x.finish c.psfConvolve c.psf (x.scene c)

end Caustics
