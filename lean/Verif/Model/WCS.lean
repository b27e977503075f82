import Verif.Model.Coord
import Mathlib.Analysis.SpecialFunctions.Trigonometric.Inverse
import Mathlib.Analysis.SpecialFunctions.Trigonometric.Arctan

/-!
World coordinate systems, `utils.py:199-602`.  One point at a time; exceptions are `none`.
-/

namespace Caustics

open Real

/-- constants.py:21. -/
noncomputable def radToDeg : ℝ := 180 / π

/-- constants.py:22. -/
noncomputable def degToRad : ℝ := 1 / radToDeg

/-- utils.py:199-241 `plane_to_world_gnomonic`. -/
noncomputable def planeToWorld (px py : ℝ) (crval : ℝ × ℝ) : ℝ × ℝ :=
  let p0 := px * degToRad
  let p1 := py * degToRad
  let rho := √(p0 ^ 2 + p1 ^ 2)
  let c := arctan rho
  let ra := crval.1 + radToDeg * arctan2 (p0 * sin c)
    (rho * cos (crval.2 * degToRad) * cos c - p1 * sin (crval.2 * degToRad) * sin c)
  let dec := if rho = 0 then crval.2 else
    radToDeg * arcsin (cos c * sin (crval.2 * degToRad)
      + p1 * sin c * cos (crval.2 * degToRad) / rho)
  (ra, dec)

/-- utils.py:410-448 `world_to_plane_gnomonic`. -/
noncomputable def worldToPlane (ra dec : ℝ) (crval : ℝ × ℝ) : ℝ × ℝ :=
  let ra' := ra * degToRad
  let dec' := dec * degToRad
  let cosc := sin (crval.2 * degToRad) * sin dec'
    + cos (crval.2 * degToRad) * cos dec' * cos (ra' - crval.1 * degToRad)
  let x := cos dec' * sin (ra' - crval.1 * degToRad) / cosc
  let y := (cos (crval.2 * degToRad) * sin dec'
    - sin (crval.2 * degToRad) * cos dec' * cos (ra' - crval.1 * degToRad)) / cosc
  (x * radToDeg, y * radToDeg)

/-- The 2×2 CD matrix. -/
structure CDMatrix where
  a : ℝ
  b : ℝ
  c : ℝ
  d : ℝ

def CDMatrix.det (m : CDMatrix) : ℝ := m.a * m.d - m.b * m.c

/-- `einsum("ij,...j->...i", CD, v)`. -/
def CDMatrix.apply (m : CDMatrix) (v : ℝ × ℝ) : ℝ × ℝ :=
  (m.a * v.1 + m.b * v.2, m.c * v.1 + m.d * v.2)

/-- `linalg.inv`; a singular matrix raises. -/
noncomputable def CDMatrix.inv? (m : CDMatrix) : Option CDMatrix :=
  if m.det = 0 then none
  else some ⟨m.d / m.det, -m.b / m.det, -m.c / m.det, m.a / m.det⟩

/-- The SIP polynomial, the loops utils.py:314-318 and 517-521: the sum over terms of
`coefs[p] * i^powers[p][0] * j^powers[p][1]`.  Fewer coefficients than powers is an IndexError
(`none`); surplus coefficients are ignored.  Powers are natural numbers. -/
def sipDelta (powers : List (ℕ × ℕ)) (coefs : List (ℝ × ℝ)) (v : ℝ × ℝ) : Option (ℝ × ℝ) :=
  if coefs.length < powers.length then none
  else some ((powers.zip coefs).foldl
    (fun acc t => (acc.1 + t.2.1 * (v.1 ^ t.1.1 * v.2 ^ t.1.2),
      acc.2 + t.2.2 * (v.1 ^ t.1.1 * v.2 ^ t.1.2))) (0, 0))

/-- utils.py:244-321 `pixel_to_plane`; `crplane = none` is Python's `None`. -/
def pixelToPlane (i j : ℝ) (crpix : ℝ × ℝ) (cd : CDMatrix) (powers : List (ℕ × ℕ))
    (coefs : List (ℝ × ℝ)) (crplane : Option (ℝ × ℝ)) : Option (ℝ × ℝ) :=
  let crp := crplane.getD (0, 0)
  let pixel := (i - crpix.1, j - crpix.2)
  (sipDelta powers coefs pixel).map fun dl =>
    let pl := cd.apply (pixel.1 + dl.1, pixel.2 + dl.2)
    (pl.1 + crp.1, pl.2 + crp.2)

/-- utils.py:451-526 `plane_to_pixel`. -/
noncomputable def planeToPixel (px py : ℝ) (crpix : ℝ × ℝ) (cd : CDMatrix)
    (powers : List (ℕ × ℕ)) (coefs : List (ℝ × ℝ)) (crplane : Option (ℝ × ℝ)) :
    Option (ℝ × ℝ) :=
  let crp := crplane.getD (0, 0)
  let plane := (px - crp.1, py - crp.2)
  match cd.inv? with
  | none => none
  | some icd =>
    let pixel := icd.apply plane
    (sipDelta powers coefs pixel).map fun dl =>
      (pixel.1 + (dl.1 + crpix.1), pixel.2 + (dl.2 + crpix.2))

/-- utils.py:324-407 `pixel_to_world`. -/
noncomputable def pixelToWorld (i j : ℝ) (crpix crval : ℝ × ℝ) (cd : CDMatrix)
    (powers : List (ℕ × ℕ)) (coefs : List (ℝ × ℝ)) (crplane : Option (ℝ × ℝ)) :
    Option (ℝ × ℝ) :=
  (pixelToPlane i j crpix cd powers coefs crplane).map fun p => planeToWorld p.1 p.2 crval

/-- utils.py:529-602 `world_to_pixel`. -/
noncomputable def worldToPixel (ra dec : ℝ) (crpix crval : ℝ × ℝ) (cd : CDMatrix)
    (powers : List (ℕ × ℕ)) (coefs : List (ℝ × ℝ)) (crplane : Option (ℝ × ℝ)) :
    Option (ℝ × ℝ) :=
  let p := worldToPlane ra dec crval
  planeToPixel p.1 p.2 crpix cd powers coefs crplane

end Caustics
