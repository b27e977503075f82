import Verif.Props.Covariance
import Verif.Props.GaussShear
import Mathlib.Analysis.SpecialFunctions.Trigonometric.Angle
import Mathlib.Analysis.SpecialFunctions.Integrals.Basic

/-! C114: multipoles turn with their angle, have the symmetry of their order and contain no mass. -/

open Real

namespace Caustics

/-- The angle of a point given in polar coordinates, up to whole turns. -/
theorem arctan2_turns {r : ℝ} (hr : 0 < r) (φ : ℝ) : ∃ k : ℤ, arctan2 (r * sin φ) (r * cos φ) = φ + k * (2 * π) := by
  have hne : r * cos φ ≠ 0 ∨ r * sin φ ≠ 0 := by
    by_contra h
    push Not at h
    have h1 := (mul_eq_zero.1 h.1).resolve_left hr.ne'
    have h2 := (mul_eq_zero.1 h.2).resolve_left hr.ne'
    have := cos_sq_add_sin_sq φ
    rw [h1, h2] at this
    norm_num at this
  have hrad : √((r * cos φ) ^ 2 + (r * sin φ) ^ 2) = r := by
    rw [show (r * cos φ) ^ 2 + (r * sin φ) ^ 2 = r ^ 2 by linear_combination r ^ 2 * cos_sq_add_sin_sq φ, sqrt_sq hr.le]
  have hc := cos_arctan2 hne
  have hs := sin_arctan2 hne
  rw [hrad, mul_div_cancel_left₀ _ hr.ne'] at hc hs
  have := Real.Angle.cos_sin_inj hc hs
  rw [Real.Angle.angle_eq_iff_two_pi_dvd_sub] at this
  obtain ⟨k, hk⟩ := this
  exact ⟨k, by linarith⟩

/-- Every position off the centre in polar coordinates. -/
theorem exists_polar {x0 y0 x y : ℝ} (h : (x, y) ≠ (x0, y0)) :
    ∃ r φ, 0 < r ∧ x = x0 + r * cos φ ∧ y = y0 + r * sin φ := by
  have h' := sub_ne_zero_or h
  have hr := radius_pos h'
  refine ⟨_, arctan2 (y - y0) (x - x0), hr, ?_, ?_⟩
  · rw [cos_arctan2 h', mul_div_cancel₀ _ hr.ne']; ring
  · rw [sin_arctan2 h', mul_div_cancel₀ _ hr.ne']; ring

theorem cos_order {m k : ℤ} {φ b : ℝ} : cos ((m : ℝ) * (φ + k * (2 * π) - b)) = cos (m * (φ - b)) := by
  rw [show (m : ℝ) * (φ + k * (2 * π) - b) = m * (φ - b) + (m * k : ℤ) * (2 * π) by push_cast; ring, cos_add_int_mul_two_pi]

theorem sin_order {m k : ℤ} {φ b : ℝ} : sin ((m : ℝ) * (φ + k * (2 * π) - b)) = sin (m * (φ - b)) := by
  rw [show (m : ℝ) * (φ + k * (2 * π) - b) = m * (φ - b) + (m * k : ℤ) * (2 * π) by push_cast; ring, sin_add_int_mul_two_pi]

variable {n : ℕ} (x0 y0 : ℝ) (m : Fin n → ℤ) (a phim : Fin n → ℝ)

/-- The three functions in polar coordinates. -/
theorem multipole_polar {r : ℝ} (hr : 0 < r) (φ : ℝ) :
    multipoleDeflection x0 y0 (fun i => m i) a phim (x0 + r * cos φ) (y0 + r * sin φ) =
      (∑ i, (cos φ * a i / (1 - (m i : ℝ) ^ 2) * cos (m i * (φ - phim i)) +
          sin φ * m i * a i / (1 - (m i : ℝ) ^ 2) * sin (m i * (φ - phim i))),
       ∑ i, (sin φ * a i / (1 - (m i : ℝ) ^ 2) * cos (m i * (φ - phim i)) -
          cos φ * m i * a i / (1 - (m i : ℝ) ^ 2) * sin (m i * (φ - phim i)))) ∧
    multipoleConvergence x0 y0 (fun i => m i) a phim (x0 + r * cos φ) (y0 + r * sin φ) =
      ∑ i, 1 / (2 * r) * a i * cos (m i * (φ - phim i)) ∧
    multipolePotential x0 y0 (fun i => m i) a phim (x0 + r * cos φ) (y0 + r * sin φ) =
      ∑ i, r * a i / (1 - (m i : ℝ) ^ 2) * cos (m i * (φ - phim i)) := by
  obtain ⟨k, hk⟩ := arctan2_turns hr φ
  have hR := ring_radius x0 y0 hr φ
  simp only [add_sub_cancel_left] at hR
  simp only [multipoleDeflection, multipoleConvergence, multipolePotential, translateRotate, add_sub_cancel_left, hk, hR,
    cos_add_int_mul_two_pi, sin_add_int_mul_two_pi, cos_order, sin_order, and_self]

theorem rotAbout_polar (th r φ : ℝ) : rotAbout x0 y0 th (x0 + r * cos φ) (y0 + r * sin φ) =
    (x0 + r * cos (φ + th), y0 + r * sin (φ + th)) := by
  simp only [rotAbout, rot, add_sub_cancel_left, cos_add, sin_add]
  ext <;> simp only <;> ring

/-- Turning every multipole by `th` turns what the lens does. -/
theorem C114_rotation (th x y : ℝ) (h : (x, y) ≠ (x0, y0)) :
    let p := rotAbout x0 y0 th x y
    multipoleDeflection x0 y0 (fun i => m i) a (fun i => phim i + th) p.1 p.2 =
      rot th (multipoleDeflection x0 y0 (fun i => m i) a phim x y) ∧
    multipoleConvergence x0 y0 (fun i => m i) a (fun i => phim i + th) p.1 p.2 =
      multipoleConvergence x0 y0 (fun i => m i) a phim x y ∧
    multipolePotential x0 y0 (fun i => m i) a (fun i => phim i + th) p.1 p.2 =
      multipolePotential x0 y0 (fun i => m i) a phim x y := by
  obtain ⟨r, φ, hr, rfl, rfl⟩ := exists_polar h
  simp only [rotAbout_polar]
  obtain ⟨h1, h2, h3⟩ := multipole_polar x0 y0 m a phim hr φ
  obtain ⟨g1, g2, g3⟩ := multipole_polar x0 y0 m a (fun i => phim i + th) hr (φ + th)
  rw [h1, h2, h3, g1, g2, g3]
  simp only [add_sub_add_right_eq_sub, and_self, and_true]
  simp only [rot, cos_add, sin_add]
  ext <;> simp only [Finset.sum_mul, ← Finset.sum_sub_distrib, ← Finset.sum_add_distrib] <;>
    exact Finset.sum_congr rfl fun i _ => by ring

/-- A multipole of order `m` returns to itself when its angle grows by a whole number of `2 pi / m`. -/
theorem C114_angle_period (k : Fin n → ℤ) (hm : ∀ i, 2 ≤ m i) (x y : ℝ) (h : (x, y) ≠ (x0, y0)) :
    multipoleDeflection x0 y0 (fun i => m i) a (fun i => phim i + k i * (2 * π / m i)) x y =
      multipoleDeflection x0 y0 (fun i => m i) a phim x y ∧
    multipoleConvergence x0 y0 (fun i => m i) a (fun i => phim i + k i * (2 * π / m i)) x y =
      multipoleConvergence x0 y0 (fun i => m i) a phim x y ∧
    multipolePotential x0 y0 (fun i => m i) a (fun i => phim i + k i * (2 * π / m i)) x y =
      multipolePotential x0 y0 (fun i => m i) a phim x y := by
  obtain ⟨r, φ, hr, rfl, rfl⟩ := exists_polar h
  obtain ⟨h1, h2, h3⟩ := multipole_polar x0 y0 m a phim hr φ
  obtain ⟨g1, g2, g3⟩ := multipole_polar x0 y0 m a (fun i => phim i + k i * (2 * π / m i)) hr φ
  have e : ∀ i, (m i : ℝ) * (φ - (phim i + k i * (2 * π / m i))) = m i * (φ - phim i) - (k i : ℤ) * (2 * π) := by
    intro i
    have : (m i : ℝ) ≠ 0 := by
      have := hm i
      exact_mod_cast (by omega : m i ≠ 0)
    field_simp
    ring
  rw [h1, h2, h3, g1, g2, g3]
  simp only [e, cos_sub_int_mul_two_pi, sin_sub_int_mul_two_pi, and_self]

/-- If `d` divides every order, turning the sky by `2 pi / d` about the centre changes nothing. -/
theorem C114_fold (d : ℤ) (hd : d ≠ 0) (hdiv : ∀ i, d ∣ m i) (x y : ℝ) (h : (x, y) ≠ (x0, y0)) :
    let p := rotAbout x0 y0 (2 * π / d) x y
    multipoleDeflection x0 y0 (fun i => m i) a phim p.1 p.2 =
      rot (2 * π / d) (multipoleDeflection x0 y0 (fun i => m i) a phim x y) ∧
    multipoleConvergence x0 y0 (fun i => m i) a phim p.1 p.2 = multipoleConvergence x0 y0 (fun i => m i) a phim x y ∧
    multipolePotential x0 y0 (fun i => m i) a phim p.1 p.2 = multipolePotential x0 y0 (fun i => m i) a phim x y := by
  obtain ⟨r, φ, hr, rfl, rfl⟩ := exists_polar h
  simp only [rotAbout_polar]
  choose c hc using hdiv
  obtain ⟨h1, h2, h3⟩ := multipole_polar x0 y0 m a phim hr φ
  obtain ⟨g1, g2, g3⟩ := multipole_polar x0 y0 m a phim hr (φ + 2 * π / d)
  have e : ∀ i, (m i : ℝ) * (φ + 2 * π / d - phim i) = m i * (φ - phim i) + (c i : ℤ) * (2 * π) := by
    intro i
    have hd' : (d : ℝ) ≠ 0 := by exact_mod_cast hd
    have : (m i : ℝ) = d * c i := by exact_mod_cast hc i
    rw [this]
    field_simp
    ring
  rw [h1, h2, h3, g1, g2, g3]
  simp only [e, cos_add_int_mul_two_pi, sin_add_int_mul_two_pi, and_self, and_true]
  simp only [rot, cos_add, sin_add]
  ext <;> simp only [Finset.sum_mul, ← Finset.sum_sub_distrib, ← Finset.sum_add_distrib] <;>
    exact Finset.sum_congr rfl fun i _ => by ring

theorem integral_cos_order {k : ℤ} (hk : k ≠ 0) (b : ℝ) : ∫ φ in (0)..(2 * π), cos ((k : ℝ) * (φ - b)) = 0 := by
  have hk' : (k : ℝ) ≠ 0 := by exact_mod_cast hk
  have hd : ∀ φ ∈ Set.uIcc 0 (2 * π), HasDerivAt (fun φ => sin ((k : ℝ) * (φ - b)) / k) (cos ((k : ℝ) * (φ - b))) φ := by
    intro φ _
    have := ((((hasDerivAt_id φ).sub_const b).const_mul (k : ℝ)).sin).div_const (k : ℝ)
    refine this.congr_deriv ?_
    simp only [id]
    field_simp
  rw [intervalIntegral.integral_eq_sub_of_hasDerivAt hd (by apply Continuous.intervalIntegrable; fun_prop)]
  rw [show (k : ℝ) * (2 * π - b) = k * (0 - b) + (k : ℤ) * (2 * π) by ring, sin_add_int_mul_two_pi]
  ring

/-- Multipoles add no mass: on every circle about the centre the convergence and the potential average to zero and no
deflection flows through it. -/
theorem C114_no_mass (hm : ∀ i, 2 ≤ m i) (r : ℝ) (hr : 0 < r) :
    ∫ φ in (0)..(2 * π), multipoleConvergence x0 y0 (fun i => m i) a phim (x0 + r * cos φ) (y0 + r * sin φ) = 0 ∧
    ∫ φ in (0)..(2 * π), multipolePotential x0 y0 (fun i => m i) a phim (x0 + r * cos φ) (y0 + r * sin φ) = 0 ∧
    ∫ φ in (0)..(2 * π), radialPart (multipoleDeflection x0 y0 (fun i => m i) a phim) x0 y0 r φ = 0 := by
  have key : ∀ w : Fin n → ℝ, ∫ φ in (0)..(2 * π), ∑ i, w i * cos ((m i : ℝ) * (φ - phim i)) = 0 := by
    intro w
    rw [intervalIntegral.integral_finsetSum fun i _ => by apply Continuous.intervalIntegrable; fun_prop]
    refine Finset.sum_eq_zero fun i _ => ?_
    rw [intervalIntegral.integral_const_mul, integral_cos_order (by have := hm i; omega), mul_zero]
  refine ⟨?_, ?_, ?_⟩
  · refine Eq.trans ?_ (key fun i => 1 / (2 * r) * a i)
    exact intervalIntegral.integral_congr fun φ _ => (multipole_polar x0 y0 m a phim hr φ).2.1
  · refine Eq.trans ?_ (key fun i => r * a i / (1 - (m i : ℝ) ^ 2))
    exact intervalIntegral.integral_congr fun φ _ => (multipole_polar x0 y0 m a phim hr φ).2.2
  · refine Eq.trans ?_ (key fun i => a i / (1 - (m i : ℝ) ^ 2))
    refine intervalIntegral.integral_congr fun φ _ => ?_
    simp only [radialPart]
    rw [(multipole_polar x0 y0 m a phim hr φ).1]
    simp only [Finset.mul_sum, ← Finset.sum_add_distrib]
    refine Finset.sum_congr rfl fun i _ => ?_
    linear_combination (a i / (1 - (m i : ℝ) ^ 2) * cos (m i * (φ - phim i))) * cos_sq_add_sin_sq φ

/-- Boxy and disky perturbation: order four at `(1, 0)` and after a quarter turn. -/
example : multipoleConvergence (n := 1) 0 0 (fun _ => ((4 : ℤ) : ℝ)) (fun _ => 2) (fun _ => 0) 0 1 = 1 := by
  obtain ⟨-, h, -⟩ := C114_fold 0 0 (fun _ : Fin 1 => 4) (fun _ => 2) (fun _ => 0) 4 (by norm_num) (fun _ => dvd_rfl) 1 0
    (by norm_num)
  have e : rotAbout 0 0 (2 * π / ((4 : ℤ) : ℝ)) 1 0 = (0, 1) := by
    simp only [rotAbout, rot]
    rw [show 2 * π / ((4 : ℤ) : ℝ) = π / 2 by push_cast; ring]
    simp
  rw [e] at h
  rw [h]
  simp [multipoleConvergence, translateRotate, arctan2, Complex.arg]

end Caustics
