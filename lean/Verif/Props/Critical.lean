import Verif.Props.SIE
import Verif.Props.Images
import Verif.Props.EnclosedMass2D

/-! C94: critical curves, where the magnification is infinite. -/

open Real MeasureTheory

namespace Caustics

/-- Determinant, Jacobian and symmetry of a vector field do not depend on the frame. -/
theorem hasJac_frame_det {v : ℝ → ℝ → ℝ × ℝ} {a b d x0 y0 phi x y : ℝ}
    (h : HasJac v a b b d (translateRotate x y x0 y0 (some phi)).1
      (translateRotate x y x0 y0 (some phi)).2) :
    ∃ a' b' d', HasJac (fun x y =>
      derotate (v (translateRotate x y x0 y0 (some phi)).1
          (translateRotate x y x0 y0 (some phi)).2).1
        (v (translateRotate x y x0 y0 (some phi)).1
          (translateRotate x y x0 y0 (some phi)).2).2 (some phi)) a' b' b' d' x y ∧
      a' + d' = a + d ∧ a' * d' - b' * b' = a * d - b * b := by
  obtain ⟨h1, h2⟩ := h
  have g1 := hasGrad_frame h1
  have g2 := hasGrad_frame h2
  have cs := sin_sq_add_cos_sq phi
  have k1 := (g1.mul (HasGrad.const (cos phi) x y)).sub (g2.mul (HasGrad.const (sin phi) x y))
  have k2 := (g1.mul (HasGrad.const (sin phi) x y)).add (g2.mul (HasGrad.const (cos phi) x y))
  refine ⟨_, _, _, ⟨k1.congr rfl rfl, k2.congr ?_ rfl⟩, ?_, ?_⟩
  · simp [derotate]; ring
  · simp only [derotate, mul_zero, add_zero]
    linear_combination (a + d) * cs
  · simp only [derotate, mul_zero, add_zero]
    linear_combination (a * d - b * b) * (sin phi ^ 2 + cos phi ^ 2 + 1) * cs

/-- The Jacobian of a lens map from that of the deflection. -/
theorem raytrace_det {α : ℝ → ℝ → ℝ × ℝ} {a b d x y : ℝ} (hJ : HasJac α a b b d x y) {M : M22 ℝ}
    (hM : HasJac (fun x y => (x - (α x y).1, y - (α x y).2)) M.a00 M.a01 M.a10 M.a11 x y) :
    M.a00 * M.a11 - M.a01 * M.a10 = 1 - (a + d) + (a * d - b * b) := by
  have e1 := hM.1.unique ((HasGrad.fst x y).sub hJ.1)
  have e2 := hM.2.unique ((HasGrad.snd x y).sub hJ.2)
  rw [e1.1, e1.2, e2.1, e2.2]
  ring

theorem sie_trace {q s X Y P W c : ℝ} (hp : 0 < P) (hW : 0 < W) (hps : P ^ 2 = q ^ 2 * (X ^ 2 + s ^ 2) + Y ^ 2)
    (hWe : W = (P + s) ^ 2 + (1 - q ^ 2) * X ^ 2) :
    c * (q ^ 2 * s ^ 2 + Y ^ 2 + s * P) / (P * W) + c * (X ^ 2 + s ^ 2 + s * P) / (P * W) = c / P := by
  have : q ^ 2 * s ^ 2 + Y ^ 2 + s * P + (X ^ 2 + s ^ 2 + s * P) = W := by
    rw [hWe]; linear_combination -hps
  rw [← add_div, ← mul_add, this]
  field_simp

theorem sie_det {q s X Y P W c : ℝ} (hp : 0 < P) (hW : 0 < W) (hps : P ^ 2 = q ^ 2 * (X ^ 2 + s ^ 2) + Y ^ 2)
    (hWe : W = (P + s) ^ 2 + (1 - q ^ 2) * X ^ 2) :
    c * (q ^ 2 * s ^ 2 + Y ^ 2 + s * P) / (P * W) * (c * (X ^ 2 + s ^ 2 + s * P) / (P * W))
      - -(c * (X * Y)) / (P * W) * (-(c * (X * Y)) / (P * W)) = s * (c * c) / (P * W) := by
  have : (q ^ 2 * s ^ 2 + Y ^ 2 + s * P) * (X ^ 2 + s ^ 2 + s * P) - X * Y * (X * Y) = s * P * W := by
    rw [hWe]
    linear_combination (-(s ^ 2) - s * P) * hps
  have e : c * (q ^ 2 * s ^ 2 + Y ^ 2 + s * P) / (P * W) * (c * (X ^ 2 + s ^ 2 + s * P) / (P * W))
      - -(c * (X * Y)) / (P * W) * (-(c * (X * Y)) / (P * W)) = c * c *
      ((q ^ 2 * s ^ 2 + Y ^ 2 + s * P) * (X ^ 2 + s ^ 2 + s * P) - X * Y * (X * Y)) / (P * W) ^ 2 := by
    ring
  rw [e, this]
  field_simp

/-- The isothermal ellipsoid with core: the determinant of the Jacobian of `raytrace` is
`1 - 2 kappa` plus a term proportional to the core. -/
theorem C94_sie_core (x0 y0 q phi Rein s : ℝ) (hq : 0 < q) (hq1 : q < 1) (hs : 0 ≤ s) (x y : ℝ)
    (h : s ≠ 0 ∨ (x, y) ≠ (x0, y0)) {M : M22 ℝ}
    (hM : HasJac (fun x y => (x - (sieDeflection x0 y0 q phi Rein s x y).1,
      y - (sieDeflection x0 y0 q phi Rein s x y).2)) M.a00 M.a01 M.a10 M.a11 x y) :
    let X := (x - x0) * cos phi + (y - y0) * sin phi
    let Y := (y - y0) * cos phi - (x - x0) * sin phi
    let P := √(q ^ 2 * (X ^ 2 + s ^ 2) + Y ^ 2)
    M.a00 * M.a11 - M.a01 * M.a10 = 1 - 2 * sieConvergence x0 y0 q phi Rein s x y
      + s * (q * Rein ^ 2) / (P * ((P + s) ^ 2 + (1 - q ^ 2) * X ^ 2)) := by
  intro X Y P
  have hX : (translateRotate x y x0 y0 (some phi)).1 = X := by simp [translateRotate, X]
  have hY : (translateRotate x y x0 y0 (some phi)).2 = Y := by simp [translateRotate, Y]
  have h' : s ≠ 0 ∨ X ≠ 0 ∨ Y ≠ 0 := by
    rw [← hX, ← hY]; exact h.imp id frame_ne
  have hQ : sieQ q = q := if_neg hq1.ne
  have hp := siePsi_pos hq h'
  have hW := sieW_pos hq hq1.le hs h'
  have hps := siePsi_sq (q := q) (s := s) (x := X) (y := Y)
  have hj : HasJac (fun x y => (Rein * √q / √(1 - q ^ 2) * arctan (√(1 - q ^ 2) * x / (siePsi q s x y + s)),
      Rein * √q / √(1 - q ^ 2) * artanh (√(1 - q ^ 2) * y / (siePsi q s x y + q ^ 2 * s)))) _ _ _ _ X Y :=
    ⟨hasGrad_sieX hq hq1 hs h' (Rein * √q), hasGrad_sieY hq hq1 hs h' (Rein * √q)⟩
  rw [← hX, ← hY] at hj
  obtain ⟨a, b, d, hJ, htr, hdet⟩ := hasJac_frame_det hj
  rw [hX, hY] at htr hdet
  have hJ' : HasJac (sieDeflection x0 y0 q phi Rein s) a b b d x y := by
    have e : sieDeflection x0 y0 q phi Rein s = fun x y => derotate
        (Rein * √q / √(1 - q ^ 2) * arctan (√(1 - q ^ 2) * (translateRotate x y x0 y0 (some phi)).1
          / (siePsi q s (translateRotate x y x0 y0 (some phi)).1
            (translateRotate x y x0 y0 (some phi)).2 + s)))
        (Rein * √q / √(1 - q ^ 2) * artanh (√(1 - q ^ 2) * (translateRotate x y x0 y0 (some phi)).2
          / (siePsi q s (translateRotate x y x0 y0 (some phi)).1
            (translateRotate x y x0 y0 (some phi)).2 + q ^ 2 * s))) (some phi) := by
      funext x y
      simp only [sieDeflection, hQ]
      rfl
    rw [e]
    exact hJ
  rw [raytrace_det hJ' hM, htr, hdet]
  have hk : sieConvergence x0 y0 q phi Rein s x y = 0.5 * √q * Rein / siePsi q s X Y := by
    simp only [sieConvergence, hX, hY]
    rfl
  rw [hk]
  change _ = 1 - _ + s * (q * Rein ^ 2) / (siePsi q s X Y * sieW q s X Y)
  have hWe : sieW q s X Y = (siePsi q s X Y + s) ^ 2 + (1 - q ^ 2) * X ^ 2 := rfl
  have hqq : √q ^ 2 = q := sq_sqrt hq.le
  have e2 : Rein * √q * (Rein * √q) = q * Rein ^ 2 := by linear_combination Rein ^ 2 * hqq
  generalize siePsi q s X Y = P at *
  generalize sieW q s X Y = W at *
  have t1 := sie_trace (c := Rein * √q) hp hW hps hWe
  have t2 := sie_det (c := Rein * √q) hp hW hps hWe
  rw [t1, t2, e2]
  congr 2
  norm_num
  ring

/-- The isothermal ellipsoid without core.  Everywhere the determinant is `1 - 2 kappa`, so the
magnification is `1 / |1 - 2 kappa|`.  It is infinite exactly on the boundary of the ellipse with axis
ratio `q` and area `π Rein²`; images inside have negative parity, images outside positive. -/
theorem C94_sie (x0 y0 q phi Rein : ℝ) (hq : 0 < q) (hq1 : q < 1) (hR : 0 < Rein) (x y : ℝ)
    (h : (x, y) ≠ (x0, y0)) {M : M22 ℝ}
    (hM : HasJac (fun x y => (x - (sieDeflection x0 y0 q phi Rein 0 x y).1,
      y - (sieDeflection x0 y0 q phi Rein 0 x y).2)) M.a00 M.a01 M.a10 M.a11 x y) :
    let D := M.a00 * M.a11 - M.a01 * M.a10
    D = 1 - 2 * sieConvergence x0 y0 q phi Rein 0 x y ∧
    pixelMagnification M = 1 / |1 - 2 * sieConvergence x0 y0 q phi Rein 0 x y| ∧
    (D ≤ 0 ↔ (x, y) ∈ skyEllipse x0 y0 q phi Rein) ∧
    (D = 0 ↔ q * ((x - x0) * cos phi + (y - y0) * sin phi) ^ 2
      + ((y - y0) * cos phi - (x - x0) * sin phi) ^ 2 / q = Rein ^ 2) ∧
    volume.real (skyEllipse x0 y0 q phi Rein) = π * Rein ^ 2 := by
  intro D
  have hD : D = 1 - 2 * sieConvergence x0 y0 q phi Rein 0 x y := by
    have := C94_sie_core x0 y0 q phi Rein 0 hq hq1 le_rfl x y (Or.inr h) hM
    simpa using this
  have hf := frame_ne (phi := phi) h
  have hX : (translateRotate x y x0 y0 (some phi)).1 = (x - x0) * cos phi + (y - y0) * sin phi := by
    simp [translateRotate]
  have hY : (translateRotate x y x0 y0 (some phi)).2 = (y - y0) * cos phi - (x - x0) * sin phi := by
    simp [translateRotate]
  have hp := siePsi_pos (s := 0) hq (Or.inr hf)
  have hps := siePsi_sq (q := q) (s := 0) (x := (translateRotate x y x0 y0 (some phi)).1)
    (y := (translateRotate x y x0 y0 (some phi)).2)
  have hk : sieConvergence x0 y0 q phi Rein 0 x y = 0.5 * √q * Rein / siePsi q 0
      (translateRotate x y x0 y0 (some phi)).1 (translateRotate x y x0 y0 (some phi)).2 := rfl
  rw [hX, hY] at hps
  rw [hX, hY] at hp hk
  set u := (x - x0) * cos phi + (y - y0) * sin phi
  set v := (y - y0) * cos phi - (x - x0) * sin phi
  set P := siePsi q 0 u v
  have hsq : 0 < √q := sqrt_pos.2 hq
  have hqq : √q ^ 2 = q := sq_sqrt hq.le
  have hD' : D = (P - √q * Rein) / P := by
    rw [hD, hk]; field_simp; ring
  have hE : q * u ^ 2 + v ^ 2 / q = P ^ 2 / q := by
    rw [hps]; field_simp; ring
  have hb : (√q * Rein) ^ 2 = Rein ^ 2 * q := by rw [mul_pow, hqq]; ring
  have hb0 : 0 < √q * Rein := by positivity
  refine ⟨hD, ?_, ?_, ?_, skyEllipse_area hq hR x0 y0 phi⟩
  · rw [pixelMagnification, ← hD]
  · change _ ↔ q * u ^ 2 + v ^ 2 / q ≤ Rein ^ 2
    rw [hE, div_le_iff₀ hq, ← hb, sq_le_sq₀ hp.le hb0.le, hD', div_le_iff₀ hp, zero_mul, sub_nonpos]
  · rw [hE, div_eq_iff hq.ne', ← hb, sq_eq_sq₀ hp.le hb0.le, hD', div_eq_zero_iff, or_iff_left hp.ne',
      sub_eq_zero]

/-- A lens with radial deflection `A`: the determinant is the tangential times the radial stretch. -/
theorem C94_radial {A : ℝ → ℝ} {A' x0 y0 x y : ℝ} (h : (x, y) ≠ (x0, y0))
    (hA : HasDerivAt A A' (√((x - x0) ^ 2 + (y - y0) ^ 2))) {α : ℝ → ℝ → ℝ × ℝ}
    (hα : ∀ x y, α x y = (A (√((x - x0) ^ 2 + (y - y0) ^ 2)) * (x - x0) / √((x - x0) ^ 2 + (y - y0) ^ 2),
      A (√((x - x0) ^ 2 + (y - y0) ^ 2)) * (y - y0) / √((x - x0) ^ 2 + (y - y0) ^ 2))) {M : M22 ℝ}
    (hM : HasJac (fun x y => (x - (α x y).1, y - (α x y).2)) M.a00 M.a01 M.a10 M.a11 x y) :
    M.a00 * M.a11 - M.a01 * M.a10 = (1 - A (√((x - x0) ^ 2 + (y - y0) ^ 2))
      / √((x - x0) ^ 2 + (y - y0) ^ 2)) * (1 - A') := by
  have h' := sub_ne_zero_pair h
  have hr := radius_pos h'
  have hsq := radius_sq (x - x0) (y - y0)
  have e : α = _ := funext fun x => funext fun y => hα x y
  have hj := hasJac_shift (hasJac_radial h' hA)
  rw [e] at hM
  rw [raytrace_det hj hM]
  generalize √((x - x0) ^ 2 + (y - y0) ^ 2) = R at *
  generalize A R = a at *
  have hB : (A' - a / R) / R ^ 2 * R ^ 2 = A' - a / R := by field_simp
  generalize (A' - a / R) / R ^ 2 = B at *
  generalize a / R = T at *
  rw [hsq] at hB
  linear_combination -(1 - T) * hB

/-- Point mass and isothermal sphere: the critical curve is the circle of radius `Rein`, inside it the
parity is negative. -/
theorem C94_circle (x0 y0 Rein x y : ℝ) (hR : 0 < Rein) (h : (x, y) ≠ (x0, y0)) {M N : M22 ℝ}
    (hM : HasJac (fun x y => (x - (sisDeflection x0 y0 Rein 0 x y).1, y - (sisDeflection x0 y0 Rein 0 x y).2))
      M.a00 M.a01 M.a10 M.a11 x y)
    (hN : HasJac (fun x y => (x - (pointDeflection x0 y0 Rein 0 x y).1,
        y - (pointDeflection x0 y0 Rein 0 x y).2)) N.a00 N.a01 N.a10 N.a11 x y) :
    (M.a00 * M.a11 - M.a01 * M.a10 ≤ 0 ↔ (x, y) ∈ skyDisc x0 y0 Rein) ∧
    (M.a00 * M.a11 - M.a01 * M.a10 = 0 ↔ (x - x0) ^ 2 + (y - y0) ^ 2 = Rein ^ 2) ∧
    (N.a00 * N.a11 - N.a01 * N.a10 ≤ 0 ↔ (x, y) ∈ skyDisc x0 y0 Rein) ∧
    (N.a00 * N.a11 - N.a01 * N.a10 = 0 ↔ (x - x0) ^ 2 + (y - y0) ^ 2 = Rein ^ 2) := by
  have h' := sub_ne_zero_pair h
  have hr := radius_pos h'
  have hsq := radius_sq (x - x0) (y - y0)
  have hin : (x, y) ∈ skyDisc x0 y0 Rein ↔ √((x - x0) ^ 2 + (y - y0) ^ 2) ≤ Rein := by
    change (x - x0) ^ 2 + (y - y0) ^ 2 ≤ Rein ^ 2 ↔ _
    rw [← sq_le_sq₀ hr.le hR.le, hsq]
  have hon : (x - x0) ^ 2 + (y - y0) ^ 2 = Rein ^ 2 ↔ √((x - x0) ^ 2 + (y - y0) ^ 2) = Rein := by
    rw [← sq_eq_sq₀ hr.le hR.le, hsq]
  have dM := C94_radial (A := fun _ => Rein) h (hasDerivAt_const _ Rein)
    (fun x y => by simp [sisDeflection, translateRotate]) hM
  have hd : HasDerivAt (fun r => Rein ^ 2 / r) (-(Rein ^ 2) / (√((x - x0) ^ 2 + (y - y0) ^ 2)) ^ 2)
      (√((x - x0) ^ 2 + (y - y0) ^ 2)) := by
    refine ((hasDerivAt_const _ (Rein ^ 2)).div (hasDerivAt_id _) hr.ne').congr_deriv ?_
    simp
  have dN := C94_radial (A := fun r => Rein ^ 2 / r) h hd (fun x y => by
    simp only [pointDeflection, translateRotate, add_zero]
    ext <;> simp only <;> ring) hN
  rw [hin, hon, dM, dN]
  generalize √((x - x0) ^ 2 + (y - y0) ^ 2) = R at *
  have e1 : (1 - Rein / R) * (1 - 0) = (R - Rein) / R := by field_simp; ring
  have e2 : (1 - Rein ^ 2 / R / R) * (1 - -(Rein ^ 2) / R ^ 2)
      = (R - Rein) * ((R + Rein) * (R ^ 2 + Rein ^ 2) / R ^ 4) := by field_simp; ring
  have hc : 0 < (R + Rein) * (R ^ 2 + Rein ^ 2) / R ^ 4 := by positivity
  rw [e1, e2]
  refine ⟨?_, ?_, ?_, ?_⟩
  · rw [div_le_iff₀ hr, zero_mul, sub_nonpos]
  · rw [div_eq_zero_iff, or_iff_left hr.ne', sub_eq_zero]
  · rw [mul_nonpos_iff, or_iff_right (by simp [hc.not_ge]), and_iff_left hc.le, sub_nonpos]
  · rw [mul_eq_zero, or_iff_left hc.ne', sub_eq_zero]

theorem rpow_one_iff {u t : ℝ} (hu : 0 ≤ u) (ht : t ≠ 0) : u ^ t = 1 ↔ u = 1 :=
  ⟨fun h => by
    have := congrArg (· ^ t⁻¹) h
    simpa [rpow_rpow_inv hu ht] using this, fun h => by rw [h, one_rpow]⟩

/-- Circular power law: the tangential critical curve is the circle of radius `Rein`; if the profile is
shallower than isothermal (`t < 1`) there is also the radial one of radius `Rein (1 - t) ^ (1 / t)`, and
nothing else. -/
theorem C94_epl (x0 y0 phi Rein t : ℝ) (N : ℕ) (cs : Option ℕ) (hN : 1 ≤ N) (hcs : ChunkOk N cs)
    (hR : 0 < Rein) (ht : 0 < t) (x y : ℝ) (h : (x, y) ≠ (x0, y0)) {α : ℝ → ℝ → ℝ × ℝ}
    (hα : ∀ x y, eplDeflection x0 y0 1 phi Rein t N cs x y = .ok (α x y)) {M : M22 ℝ}
    (hM : HasJac (fun x y => (x - (α x y).1, y - (α x y).2)) M.a00 M.a01 M.a10 M.a11 x y) :
    M.a00 * M.a11 - M.a01 * M.a10 = 0 ↔
      (x - x0) ^ 2 + (y - y0) ^ 2 = Rein ^ 2 ∨
      (t < 1 ∧ (x - x0) ^ 2 + (y - y0) ^ 2 = (Rein * (1 - t) ^ (1 / t)) ^ 2) := by
  have h' := sub_ne_zero_pair h
  have hr := radius_pos h'
  have hsq := radius_sq (x - x0) (y - y0)
  have hd : HasDerivAt (fun r => (Rein / r) ^ t * r)
      ((1 - t) * (Rein / √((x - x0) ^ 2 + (y - y0) ^ 2)) ^ t) (√((x - x0) ^ 2 + (y - y0) ^ 2)) := by
    generalize √((x - x0) ^ 2 + (y - y0) ^ 2) = R at *
    have d1 : HasDerivAt (fun r => Rein / r) (-Rein / R ^ 2) R := by
      refine ((hasDerivAt_const R Rein).div (hasDerivAt_id R) hr.ne').congr_deriv ?_
      simp
    refine ((d1.rpow_const (p := t) (Or.inl (by positivity))).mul (hasDerivAt_id R)).congr_deriv ?_
    have e : (Rein / R) ^ t = (Rein / R) ^ (t - 1) * (Rein / R) := by
      rw [← rpow_add_one (by positivity)]; ring_nf
    simp only [id, mul_one]
    rw [e]
    field_simp
    ring
  have hdet := C94_radial (A := fun r => (Rein / r) ^ t * r) h hd (fun x y => by
    have e := hα x y
    rw [epl_circular x0 y0 phi Rein t N cs hN hcs x y] at e
    rw [← Except.ok.inj e]
    by_cases hz : √((x - x0) ^ 2 + (y - y0) ^ 2) = 0
    · have h0 := sqrt_eq_zero'.mp hz
      have hx : x - x0 = 0 := by nlinarith [sq_nonneg (x - x0), sq_nonneg (y - y0)]
      have hy : y - y0 = 0 := by nlinarith [sq_nonneg (x - x0), sq_nonneg (y - y0)]
      simp [hx, hy]
    · ext <;> simp only <;> field_simp) hM
  rw [hdet, mul_eq_zero]
  generalize √((x - x0) ^ 2 + (y - y0) ^ 2) = R at *
  rw [← hsq, sq_eq_sq₀ hr.le hR.le, mul_div_assoc, div_self hr.ne', mul_one]
  have hu : 0 < Rein / R := by positivity
  have e1 : 1 - (Rein / R) ^ t = 0 ↔ R = Rein := by
    rw [sub_eq_zero, eq_comm, rpow_one_iff hu.le ht.ne', div_eq_one_iff_eq hr.ne', eq_comm]
  rw [e1]
  refine or_congr Iff.rfl ?_
  by_cases ht1 : t < 1
  · have h1 : 0 < 1 - t := by linarith
    have hw : 0 < (1 - t) ^ (1 / t) := rpow_pos_of_pos h1 _
    rw [and_iff_right ht1, sq_eq_sq₀ hr.le (by positivity)]
    have e2 : (1 - t) = ((1 - t) ^ (1 / t)) ^ t := by
      rw [← rpow_mul h1.le, one_div_mul_cancel ht.ne', rpow_one]
    have e3 : (1 - t) * (Rein / R) ^ t = ((1 - t) ^ (1 / t) * (Rein / R)) ^ t := by
      rw [mul_rpow hw.le hu.le, ← e2]
    rw [e3, sub_eq_zero, eq_comm, rpow_one_iff (by positivity) ht.ne', ← mul_div_assoc,
      div_eq_one_iff_eq hr.ne', mul_comm, eq_comm]
  · have hp : 0 < (Rein / R) ^ t := rpow_pos_of_pos hu _
    simp only [ht1, false_and, iff_false]
    nlinarith [mul_nonneg (show 0 ≤ t - 1 by linarith) hp.le]

/-- An ellipsoid with semi-axes: the critical curve crosses the major axis at `Rein / √q`. -/
example {M : M22 ℝ} (hM : HasJac (fun x y => (x - (sieDeflection 0 0 (1 / 4) 0 1 0 x y).1,
      y - (sieDeflection 0 0 (1 / 4) 0 1 0 x y).2)) M.a00 M.a01 M.a10 M.a11 2 0) :
    M.a00 * M.a11 - M.a01 * M.a10 = 0 := by
  rw [(C94_sie 0 0 (1 / 4) 0 1 (by norm_num) (by norm_num) one_pos 2 0 (by simp) hM).2.2.2.1]
  norm_num

/-- Twice as far out the image is magnified by two. -/
example {M : M22 ℝ} (hM : HasJac (fun x y => (x - (sieDeflection 0 0 (1 / 4) 0 1 0 x y).1,
      y - (sieDeflection 0 0 (1 / 4) 0 1 0 x y).2)) M.a00 M.a01 M.a10 M.a11 4 0) :
    pixelMagnification M = 2 := by
  rw [(C94_sie 0 0 (1 / 4) 0 1 (by norm_num) (by norm_num) one_pos 4 0 (by simp) hM).2.1]
  have e1 : √(1 / 4 : ℝ) = 1 / 2 := by
    rw [sqrt_eq_iff_mul_self_eq (by norm_num) (by norm_num)]; norm_num
  have e2 : √((1 / 4 : ℝ) ^ 2 * (4 ^ 2 + 0 ^ 2) + 0 ^ 2) = 1 := by norm_num
  have : sieConvergence 0 0 (1 / 4) 0 1 0 4 0 = 1 / 4 := by
    simp only [sieConvergence, translateRotate, cos_zero, sin_zero, sub_zero, mul_one, mul_zero, add_zero]
    rw [e1]
    norm_num
  rw [this]
  norm_num

/-- A shallow profile has a second critical circle: `t = 1/2` at a quarter of the Einstein radius. -/
example {α : ℝ → ℝ → ℝ × ℝ} (hα : ∀ x y, eplDeflection 0 0 1 0 1 (1 / 2) 3 none x y = .ok (α x y)) {M : M22 ℝ}
    (hM : HasJac (fun x y => (x - (α x y).1, y - (α x y).2)) M.a00 M.a01 M.a10 M.a11 (1 / 4) 0) :
    M.a00 * M.a11 - M.a01 * M.a10 = 0 := by
  refine (C94_epl 0 0 0 1 (1 / 2) 3 none (by norm_num) (Or.inl rfl) one_pos (by norm_num) (1 / 4) 0
    (by simp) hα hM).mpr (Or.inr ⟨by norm_num, ?_⟩)
  rw [show (1 : ℝ) / (1 / 2) = ((2 : ℕ) : ℝ) by norm_num, rpow_natCast]
  norm_num

end Caustics
