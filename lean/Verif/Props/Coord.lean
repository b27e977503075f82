import Verif.Lemmas.Arctan2
import Mathlib.Tactic.FieldSimp
import Mathlib.Tactic.Linarith
import Mathlib.Tactic.Positivity

/-! Properties C01, C02, C03. -/

namespace Caustics

open Real

/-! ### C01 Rotation round trip -/

/-- C01: rotating into the lens frame and back with the same angle (or without an angle)
returns the displacement from the centre. -/
theorem C01_rotate_derotate (x y x0 y0 : ℝ) (phi : Option ℝ) :
    derotate (translateRotate x y x0 y0 phi).1 (translateRotate x y x0 y0 phi).2 phi
      = (x - x0, y - y0) := by
  cases phi with
  | none => rfl
  | some p =>
    have h := Real.cos_sq_add_sin_sq p
    simp only [derotate, translateRotate, Prod.mk.injEq]
    constructor
    · linear_combination (x - x0) * h
    · linear_combination (y - y0) * h

/-- C01: derotating and then rotating (about the origin) is also the identity. -/
theorem C01_derotate_rotate (vx vy : ℝ) (phi : Option ℝ) :
    translateRotate (derotate vx vy phi).1 (derotate vx vy phi).2 0 0 phi = (vx, vy) := by
  cases phi with
  | none => simp [derotate, translateRotate]
  | some p =>
    have h := Real.cos_sq_add_sin_sq p
    simp only [derotate, translateRotate, Prod.mk.injEq]
    constructor
    · linear_combination vx * h
    · linear_combination vy * h

/-- C01: `translate_rotate` preserves distances between any two points. -/
theorem C01_rotate_isometry (x y x' y' x0 y0 : ℝ) (phi : Option ℝ) :
    ((translateRotate x y x0 y0 phi).1 - (translateRotate x' y' x0 y0 phi).1) ^ 2
      + ((translateRotate x y x0 y0 phi).2 - (translateRotate x' y' x0 y0 phi).2) ^ 2
      = (x - x') ^ 2 + (y - y') ^ 2 := by
  cases phi with
  | none => simp only [translateRotate]; ring
  | some p =>
    have h := Real.cos_sq_add_sin_sq p
    simp only [translateRotate]
    linear_combination ((x - x') ^ 2 + (y - y') ^ 2) * h

/-- C01: `derotate` preserves lengths. -/
theorem C01_derotate_isometry (vx vy : ℝ) (phi : Option ℝ) :
    (derotate vx vy phi).1 ^ 2 + (derotate vx vy phi).2 ^ 2 = vx ^ 2 + vy ^ 2 := by
  cases phi with
  | none => rfl
  | some p =>
    have h := Real.cos_sq_add_sin_sq p
    simp only [derotate]
    linear_combination (vx ^ 2 + vy ^ 2) * h

/-- C01: the direction convention. A point at distance `d` from the centre in the direction
of the position angle lands on the positive first axis of the rotated frame, and the first
axis vector derotates to that direction (counter-clockwise from the x-axis). -/
theorem C01_direction (x0 y0 d p : ℝ) :
    translateRotate (x0 + d * cos p) (y0 + d * sin p) x0 y0 (some p) = (d, 0) ∧
    derotate d 0 (some p) = (d * cos p, d * sin p) := by
  have h := Real.cos_sq_add_sin_sq p
  simp only [translateRotate, derotate, Prod.mk.injEq]
  refine ⟨⟨by linear_combination d * h, by ring⟩, by ring, by ring⟩

/-- C01: without an angle the frame is only translated. -/
theorem C01_none (x y x0 y0 : ℝ) :
    translateRotate x y x0 y0 none = (x - x0, y - y0) ∧ derotate x y none = (x, y) :=
  ⟨rfl, rfl⟩

-- a quarter turn: a non-trivial instance of C01
example : translateRotate 3 2 1 2 (some (π / 2)) = (0, -2) := by
  simp [translateRotate]; norm_num

/-! ### C02 Axis ratio flip keeps the ellipse -/

/-- Spec for C02: squared elliptical radius of the offset `(x, y)` for axis ratio `q` and
position angle `phi`, `X^2 + (Y/q)^2` in the frame whose first axis points along `phi`. -/
noncomputable def ellipseQuad (q phi x y : ℝ) : ℝ :=
  (x * cos phi + y * sin phi) ^ 2 + ((y * cos phi - x * sin phi) / q) ^ 2

/-- The spec radius is what the code computes by rotating and calling `to_elliptical`. -/
theorem C02_ellipseQuad_code (x y x0 y0 q phi : ℝ) :
    let r := translateRotate x y x0 y0 (some phi)
    let e := toElliptical r.1 r.2 q
    e.1 ^ 2 + e.2 ^ 2 = ellipseQuad q phi (x - x0) (y - y0) := by
  simp [translateRotate, toElliptical, ellipseQuad]

/-- C02: the flipped axis ratio lies in `(0, 1]`. -/
theorem C02_range (q phi : ℝ) (hq : q ≠ 0) :
    0 < (flipAxisRatio q phi).1 ∧ (flipAxisRatio q phi).1 ≤ 1 := by
  have hpos : 0 < |q| := abs_pos.mpr hq
  simp only [flipAxisRatio]
  split_ifs with h
  · exact ⟨by positivity, by rw [div_le_one hpos]; exact h.le⟩
  · exact ⟨hpos, not_lt.mp h⟩

/-- C02: flipping twice is flipping once. -/
theorem C02_idempotent (q phi : ℝ) (hq : q ≠ 0) :
    flipAxisRatio (flipAxisRatio q phi).1 (flipAxisRatio q phi).2 = flipAxisRatio q phi := by
  obtain ⟨h0, h1⟩ := C02_range q phi hq
  generalize flipAxisRatio q phi = r at *
  have : ¬ |r.1| > 1 := by rw [abs_of_pos h0]; exact not_lt.mpr h1
  simp only [flipAxisRatio, if_neg this]
  rw [abs_of_pos h0]

/-- C02: an already admissible axis ratio is returned unchanged. -/
theorem C02_identity (q phi : ℝ) (h0 : 0 < q) (h1 : q ≤ 1) : flipAxisRatio q phi = (q, phi) := by
  have : ¬ |q| > 1 := by rw [abs_of_pos h0]; exact not_lt.mpr h1
  simp only [flipAxisRatio, if_neg this]
  rw [abs_of_pos h0]

/-- C02: the flipped parameters describe the same ellipses: the squared elliptical radii of
all points are multiplied by one common positive factor. -/
theorem C02_same_ellipses (q phi : ℝ) (hq : q ≠ 0) :
    ∃ s > 0, ∀ x y : ℝ,
      ellipseQuad (flipAxisRatio q phi).1 (flipAxisRatio q phi).2 x y
        = s * ellipseQuad q phi x y := by
  have hpos : 0 < |q| := abs_pos.mpr hq
  by_cases h : |q| > 1
  · refine ⟨q ^ 2, by positivity, fun x y => ?_⟩
    simp only [flipAxisRatio, if_pos h, ellipseQuad, cos_add_pi_div_two, sin_add_pi_div_two]
    have h2 : |q| ^ 2 = q ^ 2 := sq_abs q
    field_simp
    rw [h2]; ring
  · refine ⟨1, one_pos, fun x y => ?_⟩
    simp only [flipAxisRatio, if_neg h, ellipseQuad, one_mul]
    rw [div_pow, div_pow, sq_abs]

/-- C02: consequently two points are on a common isophote before the flip iff they are after. -/
theorem C02_same_isophotes (q phi : ℝ) (hq : q ≠ 0) (x y x' y' : ℝ) :
    ellipseQuad (flipAxisRatio q phi).1 (flipAxisRatio q phi).2 x y
        = ellipseQuad (flipAxisRatio q phi).1 (flipAxisRatio q phi).2 x' y'
      ↔ ellipseQuad q phi x y = ellipseQuad q phi x' y' := by
  obtain ⟨s, hs, h⟩ := C02_same_ellipses q phi hq
  rw [h, h]
  constructor
  · exact fun e => mul_left_cancel₀ hs.ne' e
  · intro e; rw [e]

example : flipAxisRatio (-4) 1 = (1 / 4, 1 + π / 2) := by
  norm_num [flipAxisRatio]

/-! ### C03 Ellipticity conversions round trip -/

/-- C03: `(q, phi) → (e1, e2) → q` is exact. -/
theorem C03_e_q (q phi : ℝ) (h0 : 0 ≤ q) (h1 : q ≤ 1) :
    e1e2ToQ (qphiToE1e2 q phi).1 (qphiToE1e2 q phi).2 = q := by
  have hc : 0 ≤ (1 - q) / (1 + q) := div_nonneg (by linarith) (by linarith)
  have hle : (1 - q) / (1 + q) ≤ 1 := by rw [div_le_one (by linarith)]; linarith
  have hs : ((1 - q) * cos (2 * phi) / (1 + q)) ^ 2 + ((1 - q) * sin (2 * phi) / (1 + q)) ^ 2
      = ((1 - q) / (1 + q)) ^ 2 := by
    have := Real.cos_sq_add_sin_sq (2 * phi)
    have h1q : (1 + q) ≠ 0 := by linarith
    field_simp
    linear_combination (1 - q) ^ 2 * this
  simp only [e1e2ToQ, qphiToE1e2, hs, Real.sqrt_sq hc, min_eq_right hle, max_eq_right hc]
  have h1q : (1 + q) ≠ 0 := by linarith
  field_simp
  ring

/-- C03: `(q, phi) → (c1, c2) → q` is exact. -/
theorem C03_c_q (q phi : ℝ) (h0 : 0 < q) (h1 : q ≤ 1) :
    c1c2ToQ (qphiToC1c2 q phi).1 (qphiToC1c2 q phi).2 = q := by
  have hc : 0 ≤ (1 - q) / q := div_nonneg (by linarith) (by linarith)
  have hs : ((1 - q) * cos (2 * phi) / q) ^ 2 + ((1 - q) * sin (2 * phi) / q) ^ 2
      = ((1 - q) / q) ^ 2 := by
    have := Real.cos_sq_add_sin_sq (2 * phi)
    field_simp
    linear_combination (1 - q) ^ 2 * this
  simp only [c1c2ToQ, qphiToC1c2, hs, Real.sqrt_sq hc]
  have h1q : q ≠ 0 := by linarith
  field_simp
  ring

/-- An angle can be shifted by a multiple of `π` into `(-π/2, π/2]`. -/
theorem exists_int_shift (phi : ℝ) : ∃ k : ℤ, 2 * (phi + k * π) ∈ Set.Ioc (-π) π := by
  refine ⟨-toIocDiv Real.pi_pos (-(π / 2)) phi, ?_⟩
  have h := sub_toIocDiv_zsmul_mem_Ioc Real.pi_pos (-(π / 2)) phi
  simp only [zsmul_eq_mul, Set.mem_Ioc] at h ⊢
  push_cast
  constructor <;> linarith [h.1, h.2]

theorem cos_two_shift (phi : ℝ) (k : ℤ) : cos (2 * (phi + k * π)) = cos (2 * phi) := by
  rw [show 2 * (phi + k * π) = 2 * phi + k * (2 * π) by ring]; exact cos_add_int_mul_two_pi _ _

theorem sin_two_shift (phi : ℝ) (k : ℤ) : sin (2 * (phi + k * π)) = sin (2 * phi) := by
  rw [show 2 * (phi + k * π) = 2 * phi + k * (2 * π) by ring]; exact sin_add_int_mul_two_pi _ _

/-- C03: `(q, phi) → (e1, e2) → phi` returns the orientation modulo `π` (an ellipse has no
head or tail), in `(-π/2, π/2]`; exactly `phi` when `phi` already lies there. -/
theorem C03_e_phi (q phi : ℝ) (h0 : 0 ≤ q) (h1 : q < 1) :
    (∃ k : ℤ, e1e2ToPhi (qphiToE1e2 q phi).1 (qphiToE1e2 q phi).2 = phi + k * π) ∧
    (phi ∈ Set.Ioc (-(π / 2)) (π / 2) →
      e1e2ToPhi (qphiToE1e2 q phi).1 (qphiToE1e2 q phi).2 = phi) := by
  have hr : 0 < (1 - q) / (1 + q) := div_pos (by linarith) (by linarith)
  have key : ∀ k : ℤ, 2 * (phi + k * π) ∈ Set.Ioc (-π) π →
      e1e2ToPhi (qphiToE1e2 q phi).1 (qphiToE1e2 q phi).2 = phi + k * π := by
    intro k hk
    have h := arctan2_polar hr hk
    rw [cos_two_shift, sin_two_shift] at h
    simp only [e1e2ToPhi, qphiToE1e2]
    rw [mul_div_right_comm, mul_div_right_comm, h]; ring
  constructor
  · obtain ⟨k, hk⟩ := exists_int_shift phi
    exact ⟨k, key k hk⟩
  · intro h
    have := key 0 ⟨by push_cast; linarith [h.1], by push_cast; linarith [h.2]⟩
    simpa using this

/-- C03: the same for `(c1, c2)`. -/
theorem C03_c_phi (q phi : ℝ) (h0 : 0 < q) (h1 : q < 1) :
    (∃ k : ℤ, c1c2ToPhi (qphiToC1c2 q phi).1 (qphiToC1c2 q phi).2 = phi + k * π) ∧
    (phi ∈ Set.Ioc (-(π / 2)) (π / 2) →
      c1c2ToPhi (qphiToC1c2 q phi).1 (qphiToC1c2 q phi).2 = phi) := by
  have hr : 0 < (1 - q) / q := div_pos (by linarith) (by linarith)
  have key : ∀ k : ℤ, 2 * (phi + k * π) ∈ Set.Ioc (-π) π →
      c1c2ToPhi (qphiToC1c2 q phi).1 (qphiToC1c2 q phi).2 = phi + k * π := by
    intro k hk
    have h := arctan2_polar hr hk
    rw [cos_two_shift, sin_two_shift] at h
    simp only [c1c2ToPhi, qphiToC1c2]
    rw [mul_div_right_comm, mul_div_right_comm, h]; ring
  constructor
  · obtain ⟨k, hk⟩ := exists_int_shift phi
    exact ⟨k, key k hk⟩
  · intro h
    have := key 0 ⟨by push_cast; linarith [h.1], by push_cast; linarith [h.2]⟩
    simpa using this

/-- C03: a circular profile carries no orientation: any `phi` comes back as `0`. -/
theorem C03_circular (phi : ℝ) :
    e1e2ToQphi (qphiToE1e2 1 phi).1 (qphiToE1e2 1 phi).2 = (1, 0) ∧
    c1c2ToQphi (qphiToC1c2 1 phi).1 (qphiToC1c2 1 phi).2 = (1, 0) := by
  have : (⟨0, 0⟩ : ℂ) = 0 := rfl
  constructor
  · simp [e1e2ToQphi, e1e2ToQ, e1e2ToPhi, qphiToE1e2, arctan2, this]
  · simp [c1c2ToQphi, c1c2ToQ, c1c2ToPhi, qphiToC1c2, arctan2, this]

/-- C03: `(e1, e2) → (q, phi) → (e1, e2)` is the identity on the closed unit disc. -/
theorem C03_e_roundtrip (e1 e2 : ℝ) (h : e1 ^ 2 + e2 ^ 2 ≤ 1) :
    qphiToE1e2 (e1e2ToQphi e1 e2).1 (e1e2ToQphi e1 e2).2 = (e1, e2) := by
  set c := Real.sqrt (e1 ^ 2 + e2 ^ 2) with hc
  have hc0 : 0 ≤ c := Real.sqrt_nonneg _
  have hc1 : c ≤ 1 := by rw [hc]; exact Real.sqrt_le_one.mpr h
  have hx := sqrt_mul_cos_arctan2 e1 e2
  have hy := sqrt_mul_sin_arctan2 e1 e2
  rw [← hc] at hx hy
  have hq : e1e2ToQ e1 e2 = (1 - c) / (1 + c) := by
    simp only [e1e2ToQ, ← hc, min_eq_right hc1, max_eq_right hc0]
  have h2 : 2 * e1e2ToPhi e1 e2 = arctan2 e2 e1 := by simp only [e1e2ToPhi]; ring
  have hcq : (1 - (1 - c) / (1 + c)) / (1 + (1 - c) / (1 + c)) = c := by
    have : 1 + c ≠ 0 := by linarith
    field_simp
    ring
  simp only [e1e2ToQphi, qphiToE1e2, hq, h2, Prod.mk.injEq, mul_div_right_comm, hcq]
  exact ⟨hx, hy⟩

/-- C03: outside the unit disc the ellipticity is clamped: the result has `q = 0` and the
same direction, i.e. comes back as the unit vector along `(e1, e2)`. -/
theorem C03_e_clamped (e1 e2 : ℝ) (h : 1 ≤ e1 ^ 2 + e2 ^ 2) :
    e1e2ToQ e1 e2 = 0 ∧
    qphiToE1e2 (e1e2ToQphi e1 e2).1 (e1e2ToQphi e1 e2).2
      = (e1 / Real.sqrt (e1 ^ 2 + e2 ^ 2), e2 / Real.sqrt (e1 ^ 2 + e2 ^ 2)) := by
  have hc1 : 1 ≤ Real.sqrt (e1 ^ 2 + e2 ^ 2) := Real.one_le_sqrt.mpr h
  have hpos : 0 < Real.sqrt (e1 ^ 2 + e2 ^ 2) := by linarith
  have hx := sqrt_mul_cos_arctan2 e1 e2
  have hy := sqrt_mul_sin_arctan2 e1 e2
  have hq : e1e2ToQ e1 e2 = 0 := by
    simp only [e1e2ToQ, min_eq_left hc1]; norm_num
  refine ⟨hq, ?_⟩
  have h2 : 2 * e1e2ToPhi e1 e2 = arctan2 e2 e1 := by simp only [e1e2ToPhi]; ring
  simp only [e1e2ToQphi, qphiToE1e2, hq, h2, Prod.mk.injEq]
  constructor
  · rw [eq_div_iff hpos.ne']; linarith
  · rw [eq_div_iff hpos.ne']; linarith

/-- C03: `(c1, c2) → (q, phi) → (c1, c2)` is the identity everywhere. -/
theorem C03_c_roundtrip (c1 c2 : ℝ) :
    qphiToC1c2 (c1c2ToQphi c1 c2).1 (c1c2ToQphi c1 c2).2 = (c1, c2) := by
  set c := Real.sqrt (c1 ^ 2 + c2 ^ 2) with hc
  have hc0 : 0 ≤ c := Real.sqrt_nonneg _
  have hx := sqrt_mul_cos_arctan2 c1 c2
  have hy := sqrt_mul_sin_arctan2 c1 c2
  rw [← hc] at hx hy
  have hq : c1c2ToQ c1 c2 = 1 - c / (1 + c) := by
    simp only [c1c2ToQ, ← hc]
  have h2 : 2 * c1c2ToPhi c1 c2 = arctan2 c2 c1 := by simp only [c1c2ToPhi]; ring
  have hcq : (1 - (1 - c / (1 + c))) / (1 - c / (1 + c)) = c := by
    have : 1 + c ≠ 0 := by linarith
    have h1 : 1 - c / (1 + c) = 1 / (1 + c) := by field_simp; ring
    rw [h1]
    field_simp
    ring
  simp only [c1c2ToQphi, qphiToC1c2, hq, h2, Prod.mk.injEq, mul_div_right_comm, hcq]
  exact ⟨hx, hy⟩

/-- C03: both conversions always return an admissible axis ratio. -/
theorem C03_range (a b : ℝ) :
    (0 ≤ e1e2ToQ a b ∧ e1e2ToQ a b ≤ 1) ∧ (0 < c1c2ToQ a b ∧ c1c2ToQ a b ≤ 1) := by
  constructor
  · simp only [e1e2ToQ]
    set c := max 0 (min 1 (Real.sqrt (a ^ 2 + b ^ 2)))
    have h0 : 0 ≤ c := le_max_left _ _
    have h1 : c ≤ 1 := max_le zero_le_one (min_le_left _ _)
    exact ⟨div_nonneg (by linarith) (by linarith), by rw [div_le_one (by linarith)]; linarith⟩
  · simp only [c1c2ToQ]
    set c := Real.sqrt (a ^ 2 + b ^ 2)
    have h0 : 0 ≤ c := Real.sqrt_nonneg _
    have h1 : 1 - c / (1 + c) = 1 / (1 + c) := by
      have : 1 + c ≠ 0 := by linarith
      field_simp; ring
    rw [h1]
    exact ⟨by positivity, by rw [div_le_one (by linarith)]; linarith⟩

example : e1e2ToQ (3 / 10) (4 / 10) = 1 / 3 := by
  have : Real.sqrt ((3 / 10 : ℝ) ^ 2 + (4 / 10) ^ 2) = 1 / 2 := by
    rw [show ((3 / 10 : ℝ) ^ 2 + (4 / 10) ^ 2) = (1 / 2) ^ 2 by norm_num]
    exact Real.sqrt_sq (by norm_num)
  simp only [e1e2ToQ, this]; norm_num

end Caustics
