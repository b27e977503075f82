import Mathlib.Analysis.SpecialFunctions.Trigonometric.Basic
import Mathlib.Analysis.SpecialFunctions.Complex.Arg

/-!
Coordinate helpers of `src/caustics/utils.py` and `src/caustics/angle_mixin.py`.

All functions of the source act elementwise on arrays; the model is the action on one
element.  Floats are real numbers.
-/

namespace Caustics

/-- `backend.arctan2(y, x)`: the angle in `(-π, π]` of the point `(x, y)`, `0` at the
origin (IEEE signed zeros are not modelled). -/
noncomputable def arctan2 (y x : ℝ) : ℝ := Complex.arg ⟨x, y⟩

/-- utils.py:65-82 `flip_axis_ratio`.  Division `1 / q` is only selected when `q > 1`. -/
noncomputable def flipAxisRatio (q phi : ℝ) : ℝ × ℝ :=
  let q' := |q|
  (if q' > 1 then 1 / q' else q', if q' > 1 then phi + Real.pi / 2 else phi)

/-- utils.py:85-118 `translate_rotate`; `phi = none` is Python's `phi=None`. -/
noncomputable def translateRotate (x y x0 y0 : ℝ) (phi : Option ℝ) : ℝ × ℝ :=
  let xt := x - x0
  let yt := y - y0
  match phi with
  | some p => (xt * Real.cos p + yt * Real.sin p, yt * Real.cos p - xt * Real.sin p)
  | none => (xt, yt)

/-- utils.py:121-144 `derotate`. -/
noncomputable def derotate (vx vy : ℝ) (phi : Option ℝ) : ℝ × ℝ :=
  match phi with
  | none => (vx, vy)
  | some p => (vx * Real.cos p - vy * Real.sin p, vx * Real.sin p + vy * Real.cos p)

/-- utils.py:147-165 `to_elliptical`. -/
noncomputable def toElliptical (x y q : ℝ) : ℝ × ℝ := (x, y / q)

/-- angle_mixin.py:7-9 `e1e2_to_q` (`clamp` = `max lo (min hi ·)`). -/
noncomputable def e1e2ToQ (e1 e2 : ℝ) : ℝ :=
  let c := max 0 (min 1 (Real.sqrt (e1 ^ 2 + e2 ^ 2)))
  (1 - c) / (1 + c)

/-- angle_mixin.py:12-14 `e1e2_to_phi`. -/
noncomputable def e1e2ToPhi (e1 e2 : ℝ) : ℝ := 0.5 * arctan2 e2 e1

/-- angle_mixin.py:17-20 `e1e2_to_qphi`. -/
noncomputable def e1e2ToQphi (e1 e2 : ℝ) : ℝ × ℝ := (e1e2ToQ e1 e2, e1e2ToPhi e1 e2)

/-- angle_mixin.py:23-26 `qphi_to_e1e2`. -/
noncomputable def qphiToE1e2 (q phi : ℝ) : ℝ × ℝ :=
  ((1 - q) * Real.cos (2 * phi) / (1 + q), (1 - q) * Real.sin (2 * phi) / (1 + q))

/-- angle_mixin.py:29-31 `c1c2_to_q`. -/
noncomputable def c1c2ToQ (c1 c2 : ℝ) : ℝ :=
  let c := Real.sqrt (c1 ^ 2 + c2 ^ 2)
  1 - c / (1 + c)

/-- angle_mixin.py:34-36 `c1c2_to_phi`. -/
noncomputable def c1c2ToPhi (c1 c2 : ℝ) : ℝ := 0.5 * arctan2 c2 c1

/-- angle_mixin.py:39-42 `c1c2_to_qphi`. -/
noncomputable def c1c2ToQphi (c1 c2 : ℝ) : ℝ × ℝ := (c1c2ToQ c1 c2, c1c2ToPhi c1 c2)

/-- angle_mixin.py:45-48 `qphi_to_c1c2`. -/
noncomputable def qphiToC1c2 (q phi : ℝ) : ℝ × ℝ :=
  ((1 - q) * Real.cos (2 * phi) / q, (1 - q) * Real.sin (2 * phi) / q)

end Caustics
