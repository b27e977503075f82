import Verif.Lemmas.Grad
import Verif.Model.Lenses
import Mathlib.Analysis.SpecialFunctions.Trigonometric.Deriv
import Mathlib.Analysis.SpecialFunctions.Log.Deriv

/-! Moving, rotating and radially symmetric fields. -/

open Real

namespace Caustics

theorem hasGrad_shift {E : Type*} [NormedAddCommGroup E] [NormedSpace ℝ E] {u : ℝ → ℝ → E}
    {gx gy : E} {x0 y0 x y : ℝ} (h : HasGrad u gx gy (x - x0) (y - y0)) :
    HasGrad (fun x y => u (x - x0) (y - y0)) gx gy x y := by
  have hX := (HasGrad.fst x y).sub (HasGrad.const x0 x y)
  have hY := (HasGrad.snd x y).sub (HasGrad.const y0 x y)
  have := HasGrad.subst (X := fun x _ => x - x0) (Y := fun _ y => y - y0) h hX hY
  exact this.congr (by simp) (by simp)

theorem hasJac_shift {v : ℝ → ℝ → ℝ × ℝ} {a b c d x0 y0 x y : ℝ}
    (h : HasJac v a b c d (x - x0) (y - y0)) :
    HasJac (fun x y => v (x - x0) (y - y0)) a b c d x y :=
  ⟨hasGrad_shift h.1, hasGrad_shift h.2⟩

theorem hasKappa_shift {v : ℝ → ℝ → ℝ × ℝ} {k x0 y0 x y : ℝ}
    (h : HasKappa v k (x - x0) (y - y0)) :
    HasKappa (fun x y => v (x - x0) (y - y0)) k x y := by
  obtain ⟨a, b, d, h, e⟩ := h
  exact ⟨a, b, d, hasJac_shift h, e⟩

/-- The gradient in the frame of the lens, rotated back to the sky. -/
theorem hasGrad_frame {u : ℝ → ℝ → ℝ} {gx gy : ℝ} {x0 y0 phi x y : ℝ}
    (h : HasGrad u gx gy (translateRotate x y x0 y0 (some phi)).1
      (translateRotate x y x0 y0 (some phi)).2) :
    HasGrad (fun x y => u (translateRotate x y x0 y0 (some phi)).1
        (translateRotate x y x0 y0 (some phi)).2)
      (derotate gx gy (some phi)).1 (derotate gx gy (some phi)).2 x y := by
  have hx := (HasGrad.fst x y).sub (HasGrad.const x0 x y)
  have hy := (HasGrad.snd x y).sub (HasGrad.const y0 x y)
  have hX := (hx.mul (HasGrad.const (cos phi) x y)).add (hy.mul (HasGrad.const (sin phi) x y))
  have hY := (hy.mul (HasGrad.const (cos phi) x y)).sub (hx.mul (HasGrad.const (sin phi) x y))
  have := HasGrad.subst (X := fun x y => (translateRotate x y x0 y0 (some phi)).1)
    (Y := fun x y => (translateRotate x y x0 y0 (some phi)).2) h hX hY
  exact this.congr (by simp [derotate]; ring) (by simp [derotate]; ring)

/-- The half divergence and the symmetry of the Jacobian do not depend on the frame. -/
theorem hasKappa_frame {v : ℝ → ℝ → ℝ × ℝ} {k : ℝ} {x0 y0 phi x y : ℝ}
    (h : HasKappa v k (translateRotate x y x0 y0 (some phi)).1
      (translateRotate x y x0 y0 (some phi)).2) :
    HasKappa (fun x y =>
      derotate (v (translateRotate x y x0 y0 (some phi)).1
          (translateRotate x y x0 y0 (some phi)).2).1
        (v (translateRotate x y x0 y0 (some phi)).1
          (translateRotate x y x0 y0 (some phi)).2).2 (some phi)) k x y := by
  obtain ⟨a, b, d, ⟨h1, h2⟩, e⟩ := h
  have g1 := hasGrad_frame h1
  have g2 := hasGrad_frame h2
  have cs := sin_sq_add_cos_sq phi
  have k1 := (g1.mul (HasGrad.const (cos phi) x y)).sub (g2.mul (HasGrad.const (sin phi) x y))
  have k2 := (g1.mul (HasGrad.const (sin phi) x y)).add (g2.mul (HasGrad.const (cos phi) x y))
  refine ⟨_, _, _, ⟨k1.congr rfl rfl, k2.congr ?_ rfl⟩, ?_⟩
  · simp [derotate]; ring
  · simp only [derotate, mul_zero, add_zero]
    rw [e]
    linear_combination (- (a + d) / 2) * cs

section radial

variable {x y : ℝ}

theorem radius_pos (h : x ≠ 0 ∨ y ≠ 0) : 0 < √(x ^ 2 + y ^ 2) := by
  rw [sqrt_pos]
  rcases h with h | h
  · have := sq_pos_of_ne_zero h; positivity
  · have := sq_pos_of_ne_zero h; positivity

theorem radius_sq (x y : ℝ) : √(x ^ 2 + y ^ 2) ^ 2 = x ^ 2 + y ^ 2 := sq_sqrt (by positivity)

/-- The gradient of a function of the radius. -/
theorem hasGrad_radial {Psi : ℝ → ℝ} {A : ℝ} (h : x ≠ 0 ∨ y ≠ 0)
    (hP : HasDerivAt Psi A (√(x ^ 2 + y ^ 2))) :
    HasGrad (fun x y => Psi (√(x ^ 2 + y ^ 2))) (A * x / √(x ^ 2 + y ^ 2))
      (A * y / √(x ^ 2 + y ^ 2)) x y :=
  ((hasGrad_radius h).comp hP).congr (by ring) (by ring)

/-- The Jacobian of a radial vector field. -/
theorem hasJac_radial {A : ℝ → ℝ} {A' : ℝ} (h : x ≠ 0 ∨ y ≠ 0)
    (hA : HasDerivAt A A' (√(x ^ 2 + y ^ 2))) :
    let R := √(x ^ 2 + y ^ 2)
    let B := (A' - A R / R) / R ^ 2
    HasJac (fun x y => (A (√(x ^ 2 + y ^ 2)) * x / √(x ^ 2 + y ^ 2),
        A (√(x ^ 2 + y ^ 2)) * y / √(x ^ 2 + y ^ 2)))
      (A R / R + B * x ^ 2) (B * (x * y)) (B * (x * y)) (A R / R + B * y ^ 2) x y := by
  intro R B
  have hR : 0 < R := radius_pos h
  have hq : HasDerivAt (fun r => A r / r) (A' / R - A R / R ^ 2) R := by
    refine (hA.div (hasDerivAt_id R) hR.ne').congr_deriv ?_
    change (A' * R - A R * 1) / R ^ 2 = _
    field_simp
  have g := hasGrad_radial h hq
  constructor
  · have := (g.mul (HasGrad.fst x y))
    have e : (fun x y => A (√(x ^ 2 + y ^ 2)) / √(x ^ 2 + y ^ 2) * x)
        = fun x y => A (√(x ^ 2 + y ^ 2)) * x / √(x ^ 2 + y ^ 2) := by
      funext x y; ring
    rw [e] at this
    refine this.congr ?_ ?_
    · change _ / R * x + A R / R * 1 = A R / R + B * x ^ 2
      simp only [B]; field_simp; ring
    · change _ / R * x + A R / R * 0 = B * (x * y)
      simp only [B]; field_simp; ring
  · have := (g.mul (HasGrad.snd x y))
    have e : (fun x y => A (√(x ^ 2 + y ^ 2)) / √(x ^ 2 + y ^ 2) * y)
        = fun x y => A (√(x ^ 2 + y ^ 2)) * y / √(x ^ 2 + y ^ 2) := by
      funext x y; ring
    rw [e] at this
    refine this.congr ?_ ?_
    · change _ / R * y + A R / R * 0 = B * (x * y)
      simp only [B]; field_simp; ring
    · change _ / R * y + A R / R * 1 = A R / R + B * y ^ 2
      simp only [B]; field_simp; ring

/-- A radial vector field is curl free; its half divergence. -/
theorem hasKappa_radial {A : ℝ → ℝ} {A' : ℝ} (h : x ≠ 0 ∨ y ≠ 0)
    (hA : HasDerivAt A A' (√(x ^ 2 + y ^ 2))) :
    HasKappa (fun x y => (A (√(x ^ 2 + y ^ 2)) * x / √(x ^ 2 + y ^ 2),
        A (√(x ^ 2 + y ^ 2)) * y / √(x ^ 2 + y ^ 2)))
      ((A' + A (√(x ^ 2 + y ^ 2)) / √(x ^ 2 + y ^ 2)) / 2) x y := by
  refine ⟨_, _, _, hasJac_radial h hA, ?_⟩
  have hR := radius_pos h
  have hs := radius_sq x y
  obtain ⟨R, hRe⟩ : ∃ R, √(x ^ 2 + y ^ 2) = R := ⟨_, rfl⟩
  simp only [hRe] at hR hs ⊢
  field_simp
  linear_combination (A' * R - A R) * hs

end radial

theorem HasKappa.congr {v : ℝ → ℝ → ℝ × ℝ} {k k' x y : ℝ} (h : HasKappa v k x y) (e : k = k') :
    HasKappa v k' x y := e ▸ h

theorem HasKappa.congr_near {v w : ℝ → ℝ → ℝ × ℝ} {k x y : ℝ} (h : HasKappa v k x y)
    (e : ∀ᶠ p : ℝ × ℝ in nhds (x, y), w p.1 p.2 = v p.1 p.2) : HasKappa w k x y := by
  obtain ⟨a, b, d, ⟨h1, h2⟩, hk⟩ := h
  refine ⟨a, b, d, ⟨h1.congr_near ?_, h2.congr_near ?_⟩, hk⟩
  · filter_upwards [e] with p hp; rw [hp]
  · filter_upwards [e] with p hp; rw [hp]

/-- A gradient has only one value. -/
theorem HasGrad.unique {E : Type*} [NormedAddCommGroup E] [NormedSpace ℝ E] {u : ℝ → ℝ → E}
    {gx gy gx' gy' : E} {x y : ℝ} (h : HasGrad u gx gy x y) (h' : HasGrad u gx' gy' x y) :
    gx = gx' ∧ gy = gy' :=
  ⟨h.partials.1.unique h'.partials.1, h.partials.2.unique h'.partials.2⟩

theorem HasKappa.unique {v : ℝ → ℝ → ℝ × ℝ} {k k' x y : ℝ} (h : HasKappa v k x y)
    (h' : HasKappa v k' x y) : k = k' := by
  obtain ⟨a, b, d, ⟨h1, h2⟩, hk⟩ := h
  obtain ⟨a', b', d', ⟨h1', h2'⟩, hk'⟩ := h'
  rw [hk, hk', (h1.unique h1').1, (h2.unique h2').2]

end Caustics
