import Verif.Lemmas.Polar
import Mathlib.Tactic.NormNum
import Mathlib.Algebra.BigOperators.Field
import Mathlib.Tactic.Positivity

/-!
Deflection, potential and convergence of the lenses with elementary profiles, and the conversions
between masses, velocity dispersions and Einstein radii.

`HasGrad u gx gy x y` (Spec/Grad.lean) says `u` is differentiable at `(x, y)` with partial
derivatives `gx`, `gy`; `HasKappa v k x y` says the vector field `v` is differentiable at `(x, y)`
with symmetric Jacobian (no curl) and half divergence `k`.
-/

open Real

namespace Caustics

theorem sub_ne_zero_or {x y x0 y0 : ℝ} (h : (x, y) ≠ (x0, y0)) : x - x0 ≠ 0 ∨ y - y0 ≠ 0 := by
  by_contra hc
  push Not at hc
  exact h (Prod.ext (sub_eq_zero.mp hc.1) (sub_eq_zero.mp hc.2))

/-! ### Singular isothermal sphere -/

/-- With no softening the SIS deflection is the gradient of the SIS potential everywhere but at the
centre. -/
theorem C23_sis (x0 y0 Rein x y : ℝ) (h : (x, y) ≠ (x0, y0)) :
    HasGrad (sisPotential x0 y0 Rein 0) (sisDeflection x0 y0 Rein 0 x y).1
      (sisDeflection x0 y0 Rein 0 x y).2 x y := by
  have h' := sub_ne_zero_or h
  have hd : HasDerivAt (fun R : ℝ => Rein * (R + 0)) Rein (√((x - x0) ^ 2 + (y - y0) ^ 2)) := by
    refine (((hasDerivAt_id _).add_const (0 : ℝ)).const_mul Rein).congr_deriv (by ring)
  exact (hasGrad_shift (hasGrad_radial h' hd)).congr
    (by simp [sisDeflection, translateRotate]) (by simp [sisDeflection, translateRotate])

/-- What the softening does: the deflection is the gradient of the potential times `R/(R+s)`. -/
theorem C23_sis_softened_partial (x0 y0 Rein s x y : ℝ) (h : (x, y) ≠ (x0, y0)) (hs : 0 ≤ s) :
    ∃ gx gy, HasGrad (sisPotential x0 y0 Rein s) gx gy x y ∧
      sisDeflection x0 y0 Rein s x y =
        (√((x - x0) ^ 2 + (y - y0) ^ 2) / (√((x - x0) ^ 2 + (y - y0) ^ 2) + s) * gx,
         √((x - x0) ^ 2 + (y - y0) ^ 2) / (√((x - x0) ^ 2 + (y - y0) ^ 2) + s) * gy) := by
  have h' := sub_ne_zero_or h
  have hR := radius_pos h'
  have hd : HasDerivAt (fun R : ℝ => Rein * (R + s)) Rein (√((x - x0) ^ 2 + (y - y0) ^ 2)) := by
    refine (((hasDerivAt_id _).add_const s).const_mul Rein).congr_deriv (by ring)
  refine ⟨_, _, hasGrad_shift (hasGrad_radial h' hd), ?_⟩
  simp only [sisDeflection, translateRotate]
  ext <;> · simp only; field_simp

/-- The full claim for a softened SIS. -/
def C23_sis_statement : Prop :=
  ∀ x0 y0 Rein s x y : ℝ, (x, y) ≠ (x0, y0) → 0 ≤ s → 0 < Rein →
    HasGrad (sisPotential x0 y0 Rein s) (sisDeflection x0 y0 Rein s x y).1
      (sisDeflection x0 y0 Rein s x y).2 x y

/-- With softening the deflection is not the gradient of the potential: at `(1, 0)` with unit
Einstein radius and `s = 1` the deflection is 1/2 and the slope of the potential 1. -/
theorem C23_fails_sis_softened : ¬ C23_sis_statement := by
  intro h
  have h1 := h 0 0 1 1 1 0 (by simp) (by norm_num) (by norm_num)
  have hd : HasDerivAt (fun R : ℝ => (1 : ℝ) * (R + 1)) 1 (√((1 - 0) ^ 2 + (0 - 0) ^ 2)) := by
    refine (((hasDerivAt_id _).add_const (1 : ℝ)).const_mul 1).congr_deriv (by ring)
  have h2 := hasGrad_shift (x := 1) (y := 0) (x0 := 0) (y0 := 0)
    (hasGrad_radial (x := 1 - 0) (y := 0 - 0) (by norm_num) hd)
  have := (h1.unique h2).1
  norm_num [sisDeflection, translateRotate] at this

theorem C24_sis (x0 y0 Rein x y : ℝ) (h : (x, y) ≠ (x0, y0)) :
    HasKappa (sisDeflection x0 y0 Rein 0) (sisConvergence x0 y0 Rein 0 x y) x y := by
  have h' := sub_ne_zero_or h
  have := hasKappa_shift (x := x) (y := y) (x0 := x0) (y0 := y0)
    (hasKappa_radial h' (hasDerivAt_const _ Rein))
  have e : sisDeflection x0 y0 Rein 0 = fun x y =>
      (Rein * (x - x0) / √((x - x0) ^ 2 + (y - y0) ^ 2),
        Rein * (y - y0) / √((x - x0) ^ 2 + (y - y0) ^ 2)) := by
    funext x y; simp [sisDeflection, translateRotate]
  rw [e]
  refine this.congr ?_
  simp only [sisConvergence, translateRotate]
  ring

/-- With softening the half divergence exceeds the returned convergence by
`Rein s / (2 (R+s)^2)`. -/
theorem C24_sis_softened_partial (x0 y0 Rein s x y : ℝ) (h : (x, y) ≠ (x0, y0)) (hs : 0 ≤ s) :
    HasKappa (sisDeflection x0 y0 Rein s) (sisConvergence x0 y0 Rein s x y
      + Rein * s / (2 * (√((x - x0) ^ 2 + (y - y0) ^ 2) + s) ^ 2)) x y := by
  have h' := sub_ne_zero_or h
  have hR := radius_pos h'
  have hd : HasDerivAt (fun R : ℝ => Rein * R / (R + s))
      (Rein * s / (√((x - x0) ^ 2 + (y - y0) ^ 2) + s) ^ 2) (√((x - x0) ^ 2 + (y - y0) ^ 2)) := by
    refine (((hasDerivAt_id _).const_mul Rein).div ((hasDerivAt_id _).add_const s)
      (by positivity)).congr_deriv ?_
    simp only [id]
    ring
  have := hasKappa_shift (x := x) (y := y) (x0 := x0) (y0 := y0) (hasKappa_radial h' hd)
  refine (this.congr_near ?_).congr ?_
  · filter_upwards [(Continuous.tendsto (f := fun p : ℝ × ℝ => (p.1 - x0, p.2 - y0))
        (by fun_prop) (x, y)).eventually (eventually_ne_origin (x := x - x0) (y := y - y0) h')]
      with p hp
    have hR' := radius_pos hp
    simp only [sisDeflection, translateRotate]
    ext <;> · simp only; field_simp
  · simp only [sisConvergence, translateRotate]
    field_simp
    ring

/-- The full claim for a softened SIS. -/
def C24_sis_statement : Prop :=
  ∀ x0 y0 Rein s x y : ℝ, (x, y) ≠ (x0, y0) → 0 ≤ s → 0 < Rein →
    HasKappa (sisDeflection x0 y0 Rein s) (sisConvergence x0 y0 Rein s x y) x y

theorem C24_fails_sis_softened : ¬ C24_sis_statement := by
  intro h
  have h1 := h 0 0 1 1 1 0 (by simp) (by norm_num) (by norm_num)
  have h2 := C24_sis_softened_partial 0 0 1 1 1 0 (by simp) (by norm_num)
  have := h1.unique h2
  norm_num at this

example : HasGrad (sisPotential 1 2 3 0) (9 / 5) (12 / 5) 4 6 := by
  have := C23_sis 1 2 3 4 6 (by norm_num)
  have e : √(25 : ℝ) = 5 := by
    rw [show (25 : ℝ) = 5 ^ 2 by norm_num]; exact sqrt_sq (by norm_num)
  refine this.congr ?_ ?_ <;> norm_num [sisDeflection, translateRotate, e]

example : sisConvergence 1 2 3 0 4 6 = 3 / 10 := by
  have e : √(25 : ℝ) = 5 := by
    rw [show (25 : ℝ) = 5 ^ 2 by norm_num]; exact sqrt_sq (by norm_num)
  norm_num [sisConvergence, translateRotate, e]

/-! ### Point mass -/

theorem C23_point (x0 y0 Rein x y : ℝ) (h : (x, y) ≠ (x0, y0)) :
    HasGrad (pointPotential x0 y0 Rein 0) (pointDeflection x0 y0 Rein 0 x y).1
      (pointDeflection x0 y0 Rein 0 x y).2 x y := by
  have h' := sub_ne_zero_or h
  have hR := radius_pos h'
  have hd : HasDerivAt (fun R : ℝ => Rein ^ 2 * log (R + 0))
      (Rein ^ 2 / √((x - x0) ^ 2 + (y - y0) ^ 2)) (√((x - x0) ^ 2 + (y - y0) ^ 2)) := by
    refine ((((hasDerivAt_id _).add_const (0 : ℝ)).log ?_).const_mul (Rein ^ 2)).congr_deriv ?_
    · simpa using hR.ne'
    · simp; ring
  refine (hasGrad_shift (hasGrad_radial h' hd)).congr ?_ ?_ <;>
  · simp only [pointDeflection, translateRotate, add_zero]
    field_simp

theorem C24_point (x0 y0 Rein x y : ℝ) (h : (x, y) ≠ (x0, y0)) :
    ∃ k, pointConvergence x0 y0 x y = some k ∧ HasKappa (pointDeflection x0 y0 Rein 0) k x y := by
  have h' := sub_ne_zero_or h
  have hR := radius_pos h'
  refine ⟨0, ?_, ?_⟩
  · refine if_neg ?_
    rintro ⟨h1, h2⟩
    change x - x0 = 0 at h1
    change y - y0 = 0 at h2
    rcases h' with h' | h' <;> contradiction
  have hd : HasDerivAt (fun R : ℝ => Rein ^ 2 / R)
      (-Rein ^ 2 / √((x - x0) ^ 2 + (y - y0) ^ 2) ^ 2) (√((x - x0) ^ 2 + (y - y0) ^ 2)) := by
    refine ((hasDerivAt_const _ (Rein ^ 2)).div (hasDerivAt_id _) hR.ne').congr_deriv ?_
    simp
  have := hasKappa_shift (x := x) (y := y) (x0 := x0) (y0 := y0) (hasKappa_radial h' hd)
  have e : pointDeflection x0 y0 Rein 0 = fun x y =>
      (Rein ^ 2 / √((x - x0) ^ 2 + (y - y0) ^ 2) * (x - x0) / √((x - x0) ^ 2 + (y - y0) ^ 2),
        Rein ^ 2 / √((x - x0) ^ 2 + (y - y0) ^ 2) * (y - y0) / √((x - x0) ^ 2 + (y - y0) ^ 2)) := by
    funext x y
    simp only [pointDeflection, translateRotate, add_zero]
    ext <;> · simp only; ring
  rw [e]
  refine this.congr ?_
  field_simp
  ring

/-- The convergence of a point mass is infinite exactly at the lens and zero everywhere else. -/
theorem C24_point_centre (x0 y0 x y : ℝ) :
    (pointConvergence x0 y0 x y = none ↔ (x, y) = (x0, y0)) ∧
    ((x, y) ≠ (x0, y0) → pointConvergence x0 y0 x y = some 0) := by
  by_cases h : (x, y) = (x0, y0)
  · obtain ⟨rfl, rfl⟩ := Prod.mk.inj h
    simp [pointConvergence, translateRotate]
  · have h' := sub_ne_zero_or h
    have : ¬ (x - x0 = 0 ∧ y - y0 = 0) := by tauto
    have e : pointConvergence x0 y0 x y = some 0 := if_neg this
    exact ⟨by simp [e, h], fun _ => e⟩

example : pointConvergence 1 2 1 2 = none ∧ pointConvergence 1 2 1 3 = some 0 :=
  ⟨(C24_point_centre 1 2 1 2).1.2 rfl, (C24_point_centre 1 2 1 3).2 (by simp)⟩

/-- With softening the half divergence is `Rein^2 s / (R+s)^3`, not the returned 0. -/
theorem C24_point_softened_partial (x0 y0 Rein s x y : ℝ) (h : (x, y) ≠ (x0, y0)) (hs : 0 ≤ s) :
    HasKappa (pointDeflection x0 y0 Rein s)
      (Rein ^ 2 * s / (√((x - x0) ^ 2 + (y - y0) ^ 2) + s) ^ 3) x y := by
  have h' := sub_ne_zero_or h
  have hR := radius_pos h'
  have hd : HasDerivAt (fun R : ℝ => Rein ^ 2 * R / (R + s) ^ 2)
      (Rein ^ 2 * (s - √((x - x0) ^ 2 + (y - y0) ^ 2)) / (√((x - x0) ^ 2 + (y - y0) ^ 2) + s) ^ 3)
      (√((x - x0) ^ 2 + (y - y0) ^ 2)) := by
    refine (((hasDerivAt_id _).const_mul (Rein ^ 2)).div (((hasDerivAt_id _).add_const s).pow 2)
      (by simp only [id, Pi.pow_apply]; positivity)).congr_deriv ?_
    simp only [id, Pi.pow_apply]
    field_simp
    ring
  have := hasKappa_shift (x := x) (y := y) (x0 := x0) (y0 := y0) (hasKappa_radial h' hd)
  refine (this.congr_near ?_).congr ?_
  · filter_upwards [(Continuous.tendsto (f := fun p : ℝ × ℝ => (p.1 - x0, p.2 - y0))
        (by fun_prop) (x, y)).eventually (eventually_ne_origin (x := x - x0) (y := y - y0) h')]
      with p hp
    have hR' := radius_pos hp
    simp only [pointDeflection, translateRotate]
    ext <;> · simp only; field_simp
  · field_simp
    ring

example : (pointDeflection 0 0 5 0 3 4) = (3, 4) := by
  have e : √(25 : ℝ) = 5 := by
    rw [show (25 : ℝ) = 5 ^ 2 by norm_num]; exact sqrt_sq (by norm_num)
  ext <;> norm_num [pointDeflection, translateRotate, e]

/-! ### Mass sheet and external shear: everywhere, including the centre -/

theorem C23_mass_sheet (x0 y0 kappa x y : ℝ) :
    HasGrad (sheetPotential x0 y0 kappa) (sheetDeflection x0 y0 kappa x y).1
      (sheetDeflection x0 y0 kappa x y).2 x y := by
  have hx := (HasGrad.fst x y).sub (HasGrad.const x0 x y)
  have hy := (HasGrad.snd x y).sub (HasGrad.const y0 x y)
  have := ((hx.mul hx).add (hy.mul hy)).const_mul (kappa / 2)
  have e : sheetPotential x0 y0 kappa
      = fun x y => kappa / 2 * ((x - x0) * (x - x0) + (y - y0) * (y - y0)) := by
    funext x y; simp only [sheetPotential, translateRotate]; ring
  rw [e]
  refine this.congr ?_ ?_ <;> · simp only [sheetDeflection, translateRotate]; ring

theorem C24_mass_sheet (x0 y0 kappa x y : ℝ) :
    HasKappa (sheetDeflection x0 y0 kappa) (sheetConvergence kappa x y) x y := by
  have hx := ((HasGrad.fst x y).sub (HasGrad.const x0 x y)).mul (HasGrad.const kappa x y)
  have hy := ((HasGrad.snd x y).sub (HasGrad.const y0 x y)).mul (HasGrad.const kappa x y)
  refine ⟨kappa, 0, kappa, ⟨hx.congr (by ring) (by ring), hy.congr (by ring) (by ring)⟩, ?_⟩
  simp only [sheetConvergence]; ring

theorem C23_external_shear (x0 y0 g1 g2 x y : ℝ) :
    HasGrad (shearPotential x0 y0 g1 g2) (shearDeflection x0 y0 g1 g2 x y).1
      (shearDeflection x0 y0 g1 g2 x y).2 x y := by
  have hx := (HasGrad.fst x y).sub (HasGrad.const x0 x y)
  have hy := (HasGrad.snd x y).sub (HasGrad.const y0 x y)
  have := (((hx.mul hx).sub (hy.mul hy)).const_mul (0.5 * g1)).add ((hx.mul hy).const_mul g2)
  have e : shearPotential x0 y0 g1 g2
      = fun x y => 0.5 * g1 * ((x - x0) * (x - x0) - (y - y0) * (y - y0))
        + g2 * ((x - x0) * (y - y0)) := by
    funext x y; simp only [shearPotential, translateRotate]; ring
  rw [e]
  refine this.congr ?_ ?_ <;> · simp only [shearDeflection, translateRotate]; ring

theorem C24_external_shear (x0 y0 g1 g2 x y : ℝ) :
    HasKappa (shearDeflection x0 y0 g1 g2) (shearConvergence x y) x y := by
  have hx := (HasGrad.fst x y).sub (HasGrad.const x0 x y)
  have hy := (HasGrad.snd x y).sub (HasGrad.const y0 x y)
  refine ⟨g1, g2, -g1, ⟨((hx.const_mul g1).add (hy.const_mul g2)).congr (by ring) (by ring),
    ((hx.const_mul g2).sub (hy.const_mul g1)).congr (by ring) (by ring)⟩, ?_⟩
  simp only [shearConvergence]; ring

/-- The shear field is traceless with the strength and orientation it was given: its Jacobian is
`γ (cos 2φ, sin 2φ; sin 2φ, -cos 2φ)`. -/
theorem C24_shear_polar (x0 y0 gamma phi x y : ℝ) :
    HasJac (shearDeflection x0 y0 (gammaPhiToGamma1 gamma phi) (gammaPhiToGamma2 gamma phi))
      (gamma * cos (2 * phi)) (gamma * sin (2 * phi)) (gamma * sin (2 * phi))
      (-(gamma * cos (2 * phi))) x y := by
  have hx := (HasGrad.fst x y).sub (HasGrad.const x0 x y)
  have hy := (HasGrad.snd x y).sub (HasGrad.const y0 x y)
  refine ⟨((hx.const_mul _).add (hy.const_mul _)).congr ?_ ?_,
    ((hx.const_mul _).sub (hy.const_mul _)).congr ?_ ?_⟩ <;>
  · simp only [gammaPhiToGamma1, gammaPhiToGamma2]; ring

example : shearDeflection 1 0 (1 / 10) (1 / 5) 3 1 = (2 / 5, 3 / 10) := by
  ext <;> norm_num [shearDeflection, translateRotate]

/-! ### Multipoles (integer orders from 2 on, as lenses/multipole.py:75 requires) -/

theorem C23_multipole {n : ℕ} (x0 y0 : ℝ) (m : Fin n → ℤ) (a phim : Fin n → ℝ)
    (x y : ℝ) (h : (x, y) ≠ (x0, y0)) :
    HasGrad (multipolePotential x0 y0 (fun i => m i) a phim)
      (multipoleDeflection x0 y0 (fun i => (m i : ℝ)) a phim x y).1
      (multipoleDeflection x0 y0 (fun i => (m i : ℝ)) a phim x y).2 x y :=
  hasGrad_shift (HasGrad.sum Finset.univ fun i _ =>
    multipole_one (sub_ne_zero_or h) (m i) (a i) (phim i) (1 - (m i : ℝ) ^ 2))

theorem C24_multipole {n : ℕ} (x0 y0 : ℝ) (m : Fin n → ℤ) (hm : ∀ i, 2 ≤ m i) (a phim : Fin n → ℝ)
    (x y : ℝ) (h : (x, y) ≠ (x0, y0)) :
    HasKappa (multipoleDeflection x0 y0 (fun i => (m i : ℝ)) a phim)
      (multipoleConvergence x0 y0 (fun i => (m i : ℝ)) a phim x y) x y := by
  have h' := sub_ne_zero_or h
  have hR := radius_pos h'
  have hs := radius_sq (x - x0) (y - y0)
  have hm' : ∀ i, (1 : ℝ) - (m i) ^ 2 ≠ 0 := by
    intro i h0
    have h1 : (m i) ^ 2 = 1 := by
      have : ((m i : ℝ)) ^ 2 = 1 := by linarith
      exact_mod_cast this
    have := hm i
    nlinarith
  have hj := fun i => multipole_jac h' (m i) (hm' i) (a i) (phim i)
  refine ⟨_, _, _, ⟨hasGrad_shift (HasGrad.sum Finset.univ fun i _ => (hj i).1),
    hasGrad_shift ((HasGrad.sum Finset.univ fun i _ => (hj i).2).congr rfl rfl)⟩, ?_⟩
  simp only [multipoleConvergence, translateRotate]
  rw [← Finset.sum_add_distrib, Finset.sum_div]
  refine Finset.sum_congr rfl fun i _ => ?_
  obtain ⟨R, hRe⟩ : ∃ R, √((x - x0) ^ 2 + (y - y0) ^ 2) = R := ⟨_, rfl⟩
  simp only [hRe] at hR hs ⊢
  field_simp
  rw [hs]
  ring

/-- A quadrupole evaluated on its own axis: the potential is `-r a / 3`, the convergence
`a / (2 r)`. -/
example : multipoleConvergence (n := 1) 0 0 (fun _ => (2 : ℤ)) (fun _ => 3) (fun _ => 0) 5 0
    = 3 / 10 := by
  have e : √((5 : ℝ) ^ 2) = 5 := sqrt_sq (by norm_num)
  have e2 : arctan2 0 5 = 0 := by
    unfold arctan2
    rw [Complex.arg_eq_zero_iff]; norm_num
  simp [multipoleConvergence, translateRotate, e, e2]
  norm_num

/-! ### Conversions -/

theorem radToArcsec_pos : 0 < radToArcsec := by unfold radToArcsec; positivity

theorem C25_mass_rein_mass (Gc2 M d_ls d_l d_s : ℝ) (hG : 0 < Gc2) (hM : 0 ≤ M) (h1 : 0 < d_ls)
    (h2 : 0 < d_l) (h3 : 0 < d_s) :
    reinToMassPoint Gc2 (massToReinPoint Gc2 M d_ls d_l d_s) d_ls d_l d_s = M := by
  have hr := radToArcsec_pos
  unfold reinToMassPoint massToReinPoint
  rw [mul_div_cancel_left₀ _ hr.ne', sq_sqrt (by positivity)]
  field_simp

theorem C25_rein_mass_rein (Gc2 r d_ls d_l d_s : ℝ) (hG : 0 < Gc2) (hr : 0 ≤ r) (h1 : 0 < d_ls)
    (h2 : 0 < d_l) (h3 : 0 < d_s) :
    massToReinPoint Gc2 (reinToMassPoint Gc2 r d_ls d_l d_s) d_ls d_l d_s = r := by
  have hp := radToArcsec_pos
  unfold reinToMassPoint massToReinPoint
  have : 4 * Gc2 * ((r / radToArcsec) ^ 2 * d_l * d_s / (4 * Gc2 * d_ls)) * d_ls / (d_l * d_s)
      = (r / radToArcsec) ^ 2 := by
    field_simp
  rw [this, sqrt_sq (by positivity)]
  field_simp

/-- The Einstein radius grows with the mass. -/
theorem C25_mass_monotone (Gc2 M M' d_ls d_l d_s : ℝ) (hG : 0 < Gc2) (hM : 0 ≤ M) (hlt : M < M')
    (h1 : 0 < d_ls) (h2 : 0 < d_l) (h3 : 0 < d_s) :
    massToReinPoint Gc2 M d_ls d_l d_s < massToReinPoint Gc2 M' d_ls d_l d_s := by
  have hp := radToArcsec_pos
  unfold massToReinPoint
  apply mul_lt_mul_of_pos_left _ hp
  apply sqrt_lt_sqrt (by positivity)
  gcongr

theorem C25_sigma_v_monotone (c v v' dls ds : ℝ) (hc : 0 < c) (hv : 0 ≤ v) (hlt : v < v')
    (h1 : 0 < dls) (h2 : 0 < ds) : sigmaVToRein c v dls ds < sigmaVToRein c v' dls ds := by
  have hp := radToArcsec_pos
  unfold sigmaVToRein
  gcongr

/-- On the Einstein radius of a point mass or SIS the deflection is the radius itself: a source
exactly behind the lens is imaged into the Einstein ring. -/
theorem C25_einstein_ring (x0 y0 Rein x y : ℝ) (hR : 0 < Rein)
    (h : (x - x0) ^ 2 + (y - y0) ^ 2 = Rein ^ 2) :
    pointDeflection x0 y0 Rein 0 x y = (x - x0, y - y0) ∧
      sisDeflection x0 y0 Rein 0 x y = (x - x0, y - y0) := by
  have e : √((x - x0) ^ 2 + (y - y0) ^ 2) = Rein := by rw [h]; exact sqrt_sq hR.le
  constructor
  · simp only [pointDeflection, translateRotate, add_zero, e]
    ext <;> · simp only; field_simp
  · simp only [sisDeflection, translateRotate, add_zero, e]
    ext <;> · simp only; field_simp

example : massToReinPoint 1 (reinToMassPoint 1 3 2 5 7) 2 5 7 = 3 :=
  C25_rein_mass_rein 1 3 2 5 7 (by norm_num) (by norm_num) (by norm_num) (by norm_num) (by norm_num)

example : reinToMassPoint 1 radToArcsec 2 5 8 = 5 := by
  unfold reinToMassPoint
  rw [div_self radToArcsec_pos.ne']
  norm_num

end Caustics
