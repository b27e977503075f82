import Verif.Lemmas.Lens
import Verif.Lemmas.Arctan2
import Mathlib.Analysis.SpecialFunctions.Complex.LogDeriv

/-! The position angle as a function on the plane. -/

open Real

namespace Caustics

/-- `x + i y`. -/
theorem hasGrad_complex (x y : ℝ) :
    HasGrad (fun x y => (⟨x, y⟩ : ℂ)) 1 Complex.I x y := by
  have := ((HasGrad.fst x y).clm Complex.ofRealCLM).add
    (((HasGrad.snd x y).clm Complex.ofRealCLM).const_mul Complex.I)
  have e : (fun x y : ℝ => (⟨x, y⟩ : ℂ))
      = fun x y => Complex.ofRealCLM x + Complex.I * Complex.ofRealCLM y := by
    funext x y
    apply Complex.ext <;> simp
  rw [e]
  exact this.congr (by simp) (by simp)

/-- Composition with a holomorphic function. -/
theorem HasGrad.ccomp {u : ℝ → ℝ → ℂ} {ux uy f' : ℂ} {x y : ℝ} {f : ℂ → ℂ}
    (hu : HasGrad u ux uy x y) (hf : HasDerivAt f f' (u x y)) :
    HasGrad (fun x y => f (u x y)) (f' * ux) (f' * uy) x y := by
  have := HasDerivAt.comp_hasFDerivAt_of_eq (f := fun p : ℝ × ℝ => u p.1 p.2) (x, y) hf hu rfl
  refine this.congr_fderiv ?_
  ext <;> simp

theorem hasGrad_arctan2 {x y : ℝ} (h : 0 < x ∨ y ≠ 0) :
    HasGrad (fun x y => arctan2 y x) (-y / (x ^ 2 + y ^ 2)) (x / (x ^ 2 + y ^ 2)) x y := by
  have hm : (⟨x, y⟩ : ℂ) ∈ Complex.slitPlane := by
    rw [Complex.mem_slitPlane_iff]; simpa using h
  have hl := (hasGrad_complex x y).ccomp (Complex.hasStrictDerivAt_log hm).hasDerivAt
  have := hl.clm Complex.imCLM
  have e : (fun x y : ℝ => arctan2 y x)
      = fun x y => Complex.imCLM (Complex.log (⟨x, y⟩ : ℂ)) := by
    funext x y
    simp [arctan2, Complex.log_im]
  rw [e]
  refine this.congr ?_ ?_
  · simp [Complex.normSq_mk, sq]
  · simp [Complex.normSq_mk, sq]

theorem arctan2_neg {x y : ℝ} (h : x ≠ 0 ∨ y ≠ 0) :
    ∃ k : ℤ, arctan2 (-y) (-x) + π = arctan2 y x + k * (2 * π) := by
  have hz : (⟨x, y⟩ : ℂ) ≠ 0 := by
    intro h0
    have h1 := congrArg Complex.re h0
    have h2 := congrArg Complex.im h0
    simp at h1 h2
    rcases h with h | h <;> contradiction
  have ha := Complex.arg_neg_coe_angle hz
  have hneg : (-(⟨x, y⟩ : ℂ)) = ⟨-x, -y⟩ := by apply Complex.ext <;> simp
  rw [hneg] at ha
  have hb : ((arctan2 (-y) (-x) + π : ℝ) : Real.Angle) = (arctan2 y x : ℝ) := by
    unfold arctan2
    rw [Real.Angle.coe_add, ha, add_assoc, Real.Angle.coe_pi_add_coe_pi, add_zero]
  rw [Real.Angle.angle_eq_iff_two_pi_dvd_sub] at hb
  obtain ⟨k, hk⟩ := hb
  exact ⟨k, by linear_combination hk⟩

/-- Away from the origin there is a smooth choice of the position angle. -/
theorem exists_angle {x y : ℝ} (h : x ≠ 0 ∨ y ≠ 0) :
    ∃ φ : ℝ → ℝ → ℝ, HasGrad φ (-y / (x ^ 2 + y ^ 2)) (x / (x ^ 2 + y ^ 2)) x y ∧
      ∀ x y : ℝ, x ≠ 0 ∨ y ≠ 0 → ∃ k : ℤ, φ x y = arctan2 y x + k * (2 * π) := by
  by_cases hs : 0 < x ∨ y ≠ 0
  · exact ⟨_, hasGrad_arctan2 hs, fun x y _ => ⟨0, by simp⟩⟩
  · have hx : x < 0 := by
      push Not at hs
      rcases h with h | h
      · exact lt_of_le_of_ne hs.1 h
      · exact absurd hs.2 h
    have g := hasGrad_arctan2 (x := -x) (y := -y) (Or.inl (by linarith))
    have hX := (HasGrad.fst x y).neg
    have hY := (HasGrad.snd x y).neg
    have := (HasGrad.subst (X := fun x _ => -x) (Y := fun _ y => -y) g hX hY).add
      (HasGrad.const π x y)
    refine ⟨fun x y => arctan2 (-y) (-x) + π, this.congr ?_ ?_, fun x y h => arctan2_neg h⟩
    · simp; ring
    · simp; ring

theorem eventually_ne_origin {x y : ℝ} (h : x ≠ 0 ∨ y ≠ 0) :
    ∀ᶠ p : ℝ × ℝ in nhds (x, y), p.1 ≠ 0 ∨ p.2 ≠ 0 := by
  have : ∀ᶠ p : ℝ × ℝ in nhds (x, y), p ≠ (0, 0) := by
    apply isOpen_ne.mem_nhds
    intro h0
    have h1 := congrArg Prod.fst h0
    have h2 := congrArg Prod.snd h0
    simp at h1 h2
    rcases h with h | h <;> contradiction
  filter_upwards [this] with p hp
  by_contra hc
  push Not at hc
  exact hp (Prod.ext hc.1 hc.2)

theorem cos_int_branch (m : ℤ) (k : ℤ) (a b : ℝ) :
    cos (m * (a + k * (2 * π) - b)) = cos (m * (a - b)) := by
  have : (m : ℝ) * (a + k * (2 * π) - b) = m * (a - b) + (m * k : ℤ) * (2 * π) := by
    push_cast; ring
  rw [this, cos_add_int_mul_two_pi]

theorem sin_int_branch (m : ℤ) (k : ℤ) (a b : ℝ) :
    sin (m * (a + k * (2 * π) - b)) = sin (m * (a - b)) := by
  have : (m : ℝ) * (a + k * (2 * π) - b) = m * (a - b) + (m * k : ℤ) * (2 * π) := by
    push_cast; ring
  rw [this, sin_add_int_mul_two_pi]

theorem cos_arctan2 {x y : ℝ} (h : x ≠ 0 ∨ y ≠ 0) : cos (arctan2 y x) = x / √(x ^ 2 + y ^ 2) := by
  have := radius_pos h
  rw [eq_div_iff this.ne', mul_comm]
  exact sqrt_mul_cos_arctan2 x y

theorem sin_arctan2 {x y : ℝ} (h : x ≠ 0 ∨ y ≠ 0) : sin (arctan2 y x) = y / √(x ^ 2 + y ^ 2) := by
  have := radius_pos h
  rw [eq_div_iff this.ne', mul_comm]
  exact sqrt_mul_sin_arctan2 x y

/-- One multipole in the frame of its centre. -/
theorem multipole_one {x y : ℝ} (h : x ≠ 0 ∨ y ≠ 0) (m : ℤ) (a b c : ℝ) :
    HasGrad (fun x y => √(x ^ 2 + y ^ 2) * a / c * cos (m * (arctan2 y x - b)))
      (cos (arctan2 y x) * a / c * cos (m * (arctan2 y x - b))
        + sin (arctan2 y x) * m * a / c * sin (m * (arctan2 y x - b)))
      (sin (arctan2 y x) * a / c * cos (m * (arctan2 y x - b))
        - cos (arctan2 y x) * m * a / c * sin (m * (arctan2 y x - b))) x y := by
  obtain ⟨φ, hφ, hb⟩ := exists_angle h
  have hR := radius_pos h
  have hs := radius_sq x y
  have hc : ∀ x y : ℝ, x ≠ 0 ∨ y ≠ 0 → cos (m * (φ x y - b)) = cos (m * (arctan2 y x - b)) := by
    intro x y h
    obtain ⟨k, hk⟩ := hb x y h
    rw [hk, cos_int_branch]
  have hsn : sin (m * (φ x y - b)) = sin (m * (arctan2 y x - b)) := by
    obtain ⟨k, hk⟩ := hb x y h
    rw [hk, sin_int_branch]
  have h1 := ((hφ.sub (HasGrad.const b x y)).const_mul (m : ℝ)).comp (hasDerivAt_cos _)
  have h2 := (((hasGrad_radius h).mul (HasGrad.const (a / c) x y))).mul h1
  refine HasGrad.congr_near (h2.congr ?_ ?_) ?_
  · rw [hc x y h, hsn, cos_arctan2 h, sin_arctan2 h]
    obtain ⟨R, hRe⟩ : ∃ R, √(x ^ 2 + y ^ 2) = R := ⟨_, rfl⟩
    simp only [hRe] at hR hs ⊢
    rw [← hs]
    field_simp
    ring
  · rw [hc x y h, hsn, cos_arctan2 h, sin_arctan2 h]
    obtain ⟨R, hRe⟩ : ∃ R, √(x ^ 2 + y ^ 2) = R := ⟨_, rfl⟩
    simp only [hRe] at hR hs ⊢
    rw [← hs]
    field_simp
    ring
  · filter_upwards [eventually_ne_origin h] with p hp
    rw [hc p.1 p.2 hp]
    ring

/-- The Jacobian of the deflection of one multipole. -/
theorem multipole_jac {x y : ℝ} (h : x ≠ 0 ∨ y ≠ 0) (m : ℤ) (hm : (1 : ℝ) - m ^ 2 ≠ 0) (a b : ℝ) :
    let R := √(x ^ 2 + y ^ 2)
    let C := a * cos (m * (arctan2 y x - b)) / R ^ 3
    HasJac (fun x y =>
      (cos (arctan2 y x) * a / (1 - m ^ 2) * cos (m * (arctan2 y x - b))
        + sin (arctan2 y x) * m * a / (1 - m ^ 2) * sin (m * (arctan2 y x - b)),
       sin (arctan2 y x) * a / (1 - m ^ 2) * cos (m * (arctan2 y x - b))
        - cos (arctan2 y x) * m * a / (1 - m ^ 2) * sin (m * (arctan2 y x - b))))
      (C * y ^ 2) (-(C * (x * y))) (-(C * (x * y))) (C * x ^ 2) x y := by
  intro R C
  obtain ⟨φ, hφ, hb⟩ := exists_angle h
  have hR := radius_pos h
  have hs := radius_sq x y
  have hc : ∀ x y : ℝ, x ≠ 0 ∨ y ≠ 0 → cos (m * (φ x y - b)) = cos (m * (arctan2 y x - b)) := by
    intro x y h
    obtain ⟨k, hk⟩ := hb x y h
    rw [hk, cos_int_branch]
  have hsn : ∀ x y : ℝ, x ≠ 0 ∨ y ≠ 0 → sin (m * (φ x y - b)) = sin (m * (arctan2 y x - b)) := by
    intro x y h
    obtain ⟨k, hk⟩ := hb x y h
    rw [hk, sin_int_branch]
  have hc1 : ∀ x y : ℝ, x ≠ 0 ∨ y ≠ 0 → cos (φ x y) = cos (arctan2 y x) := by
    intro x y h
    obtain ⟨k, hk⟩ := hb x y h
    rw [hk, cos_add_int_mul_two_pi]
  have hs1 : ∀ x y : ℝ, x ≠ 0 ∨ y ≠ 0 → sin (φ x y) = sin (arctan2 y x) := by
    intro x y h
    obtain ⟨k, hk⟩ := hb x y h
    rw [hk, sin_add_int_mul_two_pi]
  have d1 : HasDerivAt (fun t => m * (t - b)) (m : ℝ) (φ x y) := by
    refine (((hasDerivAt_id (φ x y)).sub_const b).const_mul (m : ℝ)).congr_deriv (by ring)
  have dc : HasDerivAt (fun t => cos (m * (t - b))) _ (φ x y) := d1.cos
  have ds : HasDerivAt (fun t => sin (m * (t - b))) _ (φ x y) := d1.sin
  have e1 : HasDerivAt (fun t => cos t * (a / (1 - m ^ 2)) * cos (m * (t - b))
      + sin t * (m * a / (1 - m ^ 2)) * sin (m * (t - b)))
      (-(a * sin (φ x y) * cos (m * (φ x y - b)))) (φ x y) := by
    have := ((((hasDerivAt_cos (φ x y)).mul_const (a / (1 - (m : ℝ) ^ 2))).mul dc).add
      (((hasDerivAt_sin (φ x y)).mul_const (m * a / (1 - (m : ℝ) ^ 2))).mul ds))
    refine this.congr_deriv ?_
    field_simp
    ring
  have e2 : HasDerivAt (fun t => sin t * (a / (1 - m ^ 2)) * cos (m * (t - b))
      - cos t * (m * a / (1 - m ^ 2)) * sin (m * (t - b)))
      (a * cos (φ x y) * cos (m * (φ x y - b))) (φ x y) := by
    have := ((((hasDerivAt_sin (φ x y)).mul_const (a / (1 - (m : ℝ) ^ 2))).mul dc).sub
      (((hasDerivAt_cos (φ x y)).mul_const (m * a / (1 - (m : ℝ) ^ 2))).mul ds))
    refine this.congr_deriv ?_
    field_simp
    ring
  have g1 := hφ.comp e1
  have g2 := hφ.comp e2
  rw [hs1 x y h, hc x y h, sin_arctan2 h] at g1
  rw [hc1 x y h, hc x y h, cos_arctan2 h] at g2
  constructor
  · refine HasGrad.congr_near (g1.congr ?_ ?_) ?_
    · simp only [C]
      change _ = a * _ / R ^ 3 * _
      change 0 < R at hR
      change R ^ 2 = _ at hs
      change -(a * (y / R) * _) * _ = _
      rw [← hs]; field_simp
    · simp only [C]
      change _ = -(a * _ / R ^ 3 * _)
      change 0 < R at hR
      change R ^ 2 = _ at hs
      change -(a * (y / R) * _) * _ = _
      rw [← hs]; field_simp
    · filter_upwards [eventually_ne_origin h] with p hp
      rw [hc p.1 p.2 hp, hsn p.1 p.2 hp, hc1 p.1 p.2 hp, hs1 p.1 p.2 hp]
      ring
  · refine HasGrad.congr_near (g2.congr ?_ ?_) ?_
    · simp only [C]
      change _ = -(a * _ / R ^ 3 * _)
      change 0 < R at hR
      change R ^ 2 = _ at hs
      change (a * (x / R) * _) * _ = _
      rw [← hs]; field_simp
    · simp only [C]
      change _ = a * _ / R ^ 3 * _
      change 0 < R at hR
      change R ^ 2 = _ at hs
      change (a * (x / R) * _) * _ = _
      rw [← hs]; field_simp
    · filter_upwards [eventually_ne_origin h] with p hp
      rw [hc p.1 p.2 hp, hsn p.1 p.2 hp, hc1 p.1 p.2 hp, hs1 p.1 p.2 hp]
      ring

end Caustics
