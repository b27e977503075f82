import Verif.Lemmas.TNFWWindow
import Verif.Props.Projection
import Verif.Props.EnclosedMass2D

/-!
C107: the truncated NFW lens is accurate at every radius, the window around its scale radius included.
-/

open Real MeasureTheory Set

namespace Caustics

/-- The density of Baltz, Marshall and Oguri (2009), `x = r / rs`:
`M0 / (4π rs³) / (x (1 + x)²) τ² / (τ² + x²)`. -/
noncomputable def TNFW.density (L : TNFW) (r : ℝ) : ℝ :=
  L.M0 / (4 * π * (L.Rs * L.d_l * arcsecToRad) ^ 3) / (r / (L.Rs * L.d_l * arcsecToRad) * (1 + r / (L.Rs * L.d_l * arcsecToRad)) ^ 2)
    * (L.tau ^ 2 / (L.tau ^ 2 + (r / (L.Rs * L.d_l * arcsecToRad)) ^ 2))

/-- Its integral along the line of sight through a position. -/
noncomputable def TNFW.sigma (L : TNFW) (x y : ℝ) : ℝ :=
  ∫ z, L.density (√((L.d_l * √((x - L.x0) ^ 2 + (y - L.y0) ^ 2) * arcsecToRad) ^ 2 + z ^ 2))

/-- The integral of that over a disc of `R` arcsec. -/
noncomputable def TNFW.massIn (L : TNFW) (R : ℝ) : ℝ :=
  (L.d_l * arcsecToRad) ^ 2 * ∫ p in skyDisc L.x0 L.y0 R, L.sigma p.1 p.2

/-! ### In terms of the exact functions -/

theorem TNFW.sigmacr_pos (L : TNFW) (hL : L.Ok) : 0 < L.sigmacr := by
  rw [hL.sigmacr]
  have := hL.d_s; have := hL.G; have := hL.d_l; have := hL.d_ls; have := pi_pos
  positivity

theorem TNFW.radius_pos (L : TNFW) (hL : L.Ok) {x y : ℝ} (hxy : (x, y) ≠ (L.x0, L.y0)) : 0 < L.radius x y :=
  div_pos (Caustics.radius_pos (sub_ne_zero_or hxy)) hL.Rs

theorem TNFW.sigma_eq (L : TNFW) (hL : L.Ok) (x y : ℝ) (hxy : (x, y) ≠ (L.x0, L.y0)) :
    L.sigma x y = L.M0 / (2 * π * (L.Rs * L.d_l * arcsecToRad) ^ 2) * tnfwK L.tau (L.radius x y) := by
  have ha := arcsecToRad_pos
  have hdl := hL.d_l
  have hRs := hL.Rs
  have hpi := pi_pos
  have hr := L.radius_pos hL hxy
  have hrs : 0 < L.Rs * L.d_l * arcsecToRad := by positivity
  have hX : L.d_l * √((x - L.x0) ^ 2 + (y - L.y0) ^ 2) * arcsecToRad / (L.Rs * L.d_l * arcsecToRad) = L.radius x y := by
    rw [TNFW.radius]
    field_simp
  have hI : L.sigma x y = L.M0 / (4 * π * (L.Rs * L.d_l * arcsecToRad) ^ 3)
      * ((L.Rs * L.d_l * arcsecToRad) * (2 * tnfwK L.tau (L.radius x y))) := by
    rw [← integral_los_tnfw hr hL.tau, ← hX, ← scale_los
      (f := fun r => 1 / (r * (1 + r) ^ 2) * (L.tau ^ 2 / (L.tau ^ 2 + r ^ 2))) hrs, ← integral_const_mul, TNFW.sigma]
    congr 1
    funext z
    simp only [TNFW.density]
    rw [← mul_assoc, mul_one_div]
  rw [hI]
  field_simp
  norm_num

/-- The error of the branch at the scale radius in the convergence. -/
theorem tnfw_shape (t g : ℝ) : t ^ 2 / (t ^ 2 + 1) ^ 2 * ((if g = 1 then (t ^ 2 + 1) / 3 else (t ^ 2 + 1) * (1 - tnfwF g) / (g ^ 2 - 1))
      + 2 * tnfwF g + -π / √(t ^ 2 + g ^ 2) + (t ^ 2 - 1) * tnfwL g t / (t * √(t ^ 2 + g ^ 2))) =
    tnfwK t g + t ^ 2 / (t ^ 2 + 1) ^ 2 * ((if g = 1 then 0 else -((t ^ 2 + 1) * (tnfwF g - ringF g) / (g ^ 2 - 1)))
      + 2 * (tnfwF g - ringF g)) := by
  rw [tnfwK, ringG]
  split_ifs <;> ring

theorem TNFW.convergence_all (L : TNFW) (hs : L.s = 0) (x y : ℝ) :
    L.convergence x y * L.sigmacr = L.M0 / (2 * π * (L.Rs * L.d_l * arcsecToRad) ^ 2) / L.sigmacr * L.sigmacr *
      (tnfwK L.tau (L.radius x y) + L.tau ^ 2 / (L.tau ^ 2 + 1) ^ 2 *
        ((if L.radius x y = 1 then 0 else -((L.tau ^ 2 + 1) * (tnfwF (L.radius x y) - ringF (L.radius x y)) / (L.radius x y ^ 2 - 1)))
          + 2 * (tnfwF (L.radius x y) - ringF (L.radius x y)))) := by
  have hd : L.convergence x y = L.tau ^ 2 / (L.tau ^ 2 + 1) ^ 2 *
      ((if L.radius x y = 1 then (L.tau ^ 2 + 1) / 3
          else (L.tau ^ 2 + 1) * (1 - tnfwF (L.radius x y)) / (L.radius x y ^ 2 - 1))
        + 2 * tnfwF (L.radius x y) + -π / √(L.tau ^ 2 + L.radius x y ^ 2)
        + (L.tau ^ 2 - 1) * tnfwL (L.radius x y) L.tau / (L.tau * √(L.tau ^ 2 + L.radius x y ^ 2)))
      * (L.M0 / (2 * π * (L.Rs * L.d_l * arcsecToRad) ^ 2)) / L.sigmacr := by
    simp only [TNFW.convergence, TNFW.radius, translateRotate, hs, add_zero]
    congr!
  rw [hd, tnfw_shape]
  ring

theorem tnfwMass_all (r Rs t M0 : ℝ) : tnfwMassEnclosed r Rs t M0 = M0 * (t ^ 2 / (t ^ 2 + 1) ^ 2) *
    (tnfwMb t (r / Rs) + (t ^ 2 + 1 + 2 * ((r / Rs) ^ 2 - 1)) * (tnfwF (r / Rs) - ringF (r / Rs))) := by
  simp only [tnfwMassEnclosed, tnfwMb]
  ring

theorem window_sq {g : ℝ} (h : |g - 1| ≤ 1e-2) : 199 / 100 * |g - 1| ≤ |g ^ 2 - 1| ∧ |g ^ 2 - 1| ≤ 201 / 10000 ∧ 98 / 100 ≤ g ^ 2 := by
  obtain ⟨h1, h2⟩ := abs_le.1 h
  norm_num at h1 h2 h
  have e : g ^ 2 - 1 = (g - 1) * (g + 1) := by ring
  have hp : |g + 1| = g + 1 := abs_of_pos (by linarith)
  rw [e, abs_mul, hp]
  have := abs_nonneg (g - 1)
  refine ⟨by nlinarith, ?_, by nlinarith⟩
  nlinarith

/-- The relative error of the shape of the convergence. -/
theorem tnfw_shape_err {t g : ℝ} (ht : 0 < t) :
    |t ^ 2 / (t ^ 2 + 1) ^ 2 * ((if g = 1 then 0 else -((t ^ 2 + 1) * (tnfwF g - ringF g) / (g ^ 2 - 1)))
      + 2 * (tnfwF g - ringF g))| ≤ 14 / 100000 * |tnfwK t g| := by
  rcases le_or_gt |g - 1| 1e-2 with h | h
  swap
  · have h1 := ne_one_of_window (by norm_num) h
    rw [tnfwF_eq h, if_neg h1]
    simp
  have hK := tnfwK_window ht h
  have hE := tnfwF_err h
  obtain ⟨hs1, hs2, -⟩ := window_sq h
  set p := t ^ 2 / (t ^ 2 + 1) with hp
  have hp0 : 0 < p := by positivity
  have ea : t ^ 2 / (t ^ 2 + 1) ^ 2 = p / (t ^ 2 + 1) := by rw [hp]; field_simp
  have hd0 := abs_nonneg (g - 1)
  have hd : |g - 1| ≤ 1 / 100 := by norm_num at h ⊢; exact h
  have hE3 : |tnfwF g - ringF g| ≤ 4 / 10000000 := by
    refine hE.trans ?_
    have : |g - 1| ^ 3 ≤ (1 / 100) ^ 3 := by gcongr
    linarith
  have hD : |if g = 1 then 0 else -((t ^ 2 + 1) * (tnfwF g - ringF g) / (g ^ 2 - 1))| ≤ (t ^ 2 + 1) * (202 / 10000000) := by
    split_ifs with hg
    · rw [abs_zero]; positivity
    · have hg0 : 0 < |g - 1| := abs_pos.2 (sub_ne_zero.2 hg)
      rw [abs_neg, abs_div, abs_mul, abs_of_pos (show 0 < t ^ 2 + 1 by positivity), mul_div_assoc]
      refine mul_le_mul_of_nonneg_left ?_ (by positivity)
      have hq : 0 < |g ^ 2 - 1| := by linarith
      rw [div_le_iff₀ hq]
      have h2 : |g - 1| ^ 2 ≤ (1 / 100) ^ 2 := by gcongr
      have h3 : |g - 1| ^ 3 = |g - 1| ^ 2 * |g - 1| := by ring
      rw [h3] at hE
      nlinarith
  rw [abs_mul, ea, abs_of_pos (show 0 < p / (t ^ 2 + 1) by positivity), abs_of_pos (lt_trans (by positivity) hK)]
  have hb := abs_add_le (if g = 1 then 0 else -((t ^ 2 + 1) * (tnfwF g - ringF g) / (g ^ 2 - 1))) (2 * (tnfwF g - ringF g))
  have h2 : |2 * (tnfwF g - ringF g)| ≤ 8 / 10000000 := by
    rw [abs_mul, abs_two]; linarith
  have hb2 : |(if g = 1 then 0 else -((t ^ 2 + 1) * (tnfwF g - ringF g) / (g ^ 2 - 1))) + 2 * (tnfwF g - ringF g)| ≤
      (t ^ 2 + 1) * (210 / 10000000) := by
    have : (8 : ℝ) / 10000000 ≤ (t ^ 2 + 1) * (8 / 10000000) := by nlinarith [sq_nonneg t]
    linarith
  calc p / (t ^ 2 + 1) * _ ≤ p / (t ^ 2 + 1) * ((t ^ 2 + 1) * (210 / 10000000)) := by gcongr
    _ = p * (210 / 10000000) := by field_simp
    _ ≤ 14 / 100000 * tnfwK t g := by nlinarith

/-- The relative error of the shape of the mass. -/
theorem tnfw_mass_err {t g : ℝ} (ht : 0 < t) (hg : 0 < g) :
    |(t ^ 2 + 1 + 2 * (g ^ 2 - 1)) * (tnfwF g - ringF g)| ≤ 6 / 1000000 * tnfwMb t g := by
  rcases le_or_gt |g - 1| 1e-2 with h | h
  swap
  · rw [tnfwF_eq h, sub_self, mul_zero, abs_zero]
    have := tnfwMb_pos ht hg
    positivity
  have hK := tnfwK_window ht h
  have hM := tnfwMb_lower ht hg
  have hE := tnfwF_err h
  obtain ⟨hs1, hs2, hs3⟩ := window_sq h
  have hd0 := abs_nonneg (g - 1)
  have hd : |g - 1| ≤ 1 / 100 := by norm_num at h ⊢; exact h
  have hE3 : |tnfwF g - ringF g| ≤ 4 / 10000000 := by
    refine hE.trans ?_
    have : |g - 1| ^ 3 ≤ (1 / 100) ^ 3 := by gcongr
    linarith
  have hlow : (t ^ 2 + 1) * (784 / 10000) ≤ tnfwMb t g := by
    refine le_trans ?_ hM
    have h1 : 98 / 100 / 2 * (4 / 25 * (t ^ 2 / (t ^ 2 + 1))) ≤ g ^ 2 / 2 * tnfwK t g := by gcongr
    refine le_trans (le_of_eq ?_) (mul_le_mul_of_nonneg_left h1 (by positivity))
    field_simp
    norm_num
  rw [abs_mul]
  have hf : |t ^ 2 + 1 + 2 * (g ^ 2 - 1)| ≤ (t ^ 2 + 1) * (105 / 100) := by
    have := abs_add_le (t ^ 2 + 1) (2 * (g ^ 2 - 1))
    rw [abs_mul, abs_two, abs_of_pos (show 0 < t ^ 2 + 1 by positivity)] at this
    nlinarith [sq_nonneg t]
  calc |t ^ 2 + 1 + 2 * (g ^ 2 - 1)| * |tnfwF g - ringF g| ≤ (t ^ 2 + 1) * (105 / 100) * (4 / 10000000) := by gcongr
    _ ≤ 6 / 1000000 * ((t ^ 2 + 1) * (784 / 10000)) := by nlinarith [sq_nonneg t]
    _ ≤ _ := by gcongr

/-! ### C107 -/

/-- The convergence times the critical surface density is the projected density to 1.4 parts in ten thousand, at every
position. -/
theorem C107_convergence (L : TNFW) (hL : L.Ok) (hs : L.s = 0) (x y : ℝ) (hxy : (x, y) ≠ (L.x0, L.y0)) :
    |L.convergence x y * L.sigmacr - L.sigma x y| ≤ 14 / 100000 * |L.sigma x y| := by
  have h0 := L.sigmacr_pos hL
  rw [L.convergence_all hs, L.sigma_eq hL x y hxy, div_mul_cancel₀ _ h0.ne', mul_add, add_sub_cancel_left]
  have h := mul_le_mul_of_nonneg_left (tnfw_shape_err (g := L.radius x y) hL.tau)
    (abs_nonneg (L.M0 / (2 * π * (L.Rs * L.d_l * arcsecToRad) ^ 2)))
  rw [← abs_mul, mul_left_comm |_|, ← abs_mul] at h
  exact h

theorem TNFW.massIn_eq (L : TNFW) (hL : L.Ok) (hM : 0 ≤ L.M0) (R : ℝ) (hR : 0 < R) :
    L.massIn R = L.M0 * (L.tau ^ 2 / (L.tau ^ 2 + 1) ^ 2) * tnfwMb L.tau (R / L.Rs) := by
  have ha := arcsecToRad_pos
  have hdl := hL.d_l
  have hRs := hL.Rs; have ht := hL.tau
  have hpi := pi_pos
  set C := L.M0 / (2 * π * (L.Rs * L.d_l * arcsecToRad) ^ 2) with hC
  have hC0 : 0 ≤ C := by rw [hC]; positivity
  have h := skyDisc_integral_off (F := fun p => L.sigma p.1 p.2)
    (f := fun r => C * tnfwK L.tau (r / L.Rs))
    (M := fun r => C * L.Rs ^ 2 * (L.tau ^ 2 / (L.tau ^ 2 + 1) ^ 2) * tnfwMb L.tau (r / L.Rs))
    L.x0 L.y0 hR ?_ ?_ ?_ ?_
  · rw [TNFW.massIn, h, hC]
    field_simp
  · intro p hp hpd
    rw [L.sigma_eq hL p.1 p.2 hp]
    rfl
  · have hz := (tendsto_tnfwBracket_zero ht)
    have hd : Filter.Tendsto (fun r : ℝ => r / L.Rs) (nhdsWithin 0 (Ioi 0)) (nhdsWithin 0 (Ioi 0)) := by
      rw [tendsto_nhdsWithin_iff]
      refine ⟨?_, ?_⟩
      · have : Filter.Tendsto (fun r : ℝ => r / L.Rs) (nhds 0) (nhds (0 / L.Rs)) :=
          Filter.tendsto_id.div_const _
        rw [zero_div] at this
        exact tendsto_nhdsWithin_of_tendsto_nhds this
      · filter_upwards [self_mem_nhdsWithin] with r hr
        exact div_pos hr hRs
    have := (hz.comp hd).const_mul (C * L.Rs ^ 2 * (L.tau ^ 2 / (L.tau ^ 2 + 1) ^ 2))
    rw [mul_zero] at this
    exact this
  · intro r h0 h1
    have hg : 0 < r / L.Rs := by positivity
    have hk : HasDerivAt (fun r : ℝ => r / L.Rs) (1 / L.Rs) r := (hasDerivAt_id r).div_const L.Rs
    have hc := HasDerivAt.comp (h₂ := tnfwMb L.tau) (h := fun r : ℝ => r / L.Rs) _
      (hasDerivAt_tnfwMb_all ht hg) hk
    refine (hc.const_mul (C * L.Rs ^ 2 * (L.tau ^ 2 / (L.tau ^ 2 + 1) ^ 2))).congr_deriv ?_
    field_simp
  · intro r hr
    exact mul_nonneg hC0 (tnfwK_pos (div_pos hr.1 hRs) ht).le

/-- `mass_enclosed_2d` is the integral of the projected density over the disc to six parts in a million, for every radius. -/
theorem C107_mass (L : TNFW) (hL : L.Ok) (hM : 0 ≤ L.M0) (R : ℝ) (hR : 0 < R) :
    |tnfwMassEnclosed R L.Rs L.tau L.M0 - L.massIn R| ≤ 6 / 1000000 * L.massIn R := by
  rw [L.massIn_eq hL hM R hR, tnfwMass_all, mul_add, add_sub_cancel_left, abs_mul,
    abs_of_nonneg (show 0 ≤ L.M0 * (L.tau ^ 2 / (L.tau ^ 2 + 1) ^ 2) by have := hL.tau; positivity), mul_left_comm]
  exact mul_le_mul_of_nonneg_left (tnfw_mass_err hL.tau (div_pos hR hL.Rs)) (by have := hL.tau; positivity)

/-- The deflection is that of the projected density, `4 G M(R) / (c² ξ)` towards the centre, to six parts in a million. -/
theorem C107_deflection (L : TNFW) (hL : L.Ok) (hM : 0 ≤ L.M0) (hs : L.s = 0) (x y : ℝ) (hxy : (x, y) ≠ (L.x0, L.y0)) :
    let R := √((x - L.x0) ^ 2 + (y - L.y0) ^ 2)
    let a := L.d_ls / L.d_s * (4 * L.Gc2 * L.massIn R / (L.d_l * R * arcsecToRad)) * radToArcsec
    |(L.deflection x y).1 - a * ((x - L.x0) / R)| ≤ 6 / 1000000 * |a * ((x - L.x0) / R)| ∧
      |(L.deflection x y).2 - a * ((y - L.y0) / R)| ≤ 6 / 1000000 * |a * ((y - L.y0) / R)| := by
  intro R a
  have hR : 0 < R := Caustics.radius_pos (sub_ne_zero_or hxy)
  have hm := C107_mass L hL hM R hR
  have hm0 : 0 ≤ L.massIn R := by
    by_contra h
    have := abs_nonneg (tnfwMassEnclosed R L.Rs L.tau L.M0 - L.massIn R)
    linarith
  have key : ∀ u : ℝ, |L.d_ls / L.d_s * (4 * L.Gc2 * radToArcsec) / (L.d_l * arcsecToRad)
          * (tnfwMassEnclosed (R / L.Rs) 1 L.tau L.M0 / R) * u / R - a * (u / R)| ≤ 6 / 1000000 * |a * (u / R)| := by
    intro u
    have ha := arcsecToRad_pos
    have hdl := hL.d_l
    rw [← tnfwMass_scale]
    have e1 : L.d_ls / L.d_s * (4 * L.Gc2 * radToArcsec) / (L.d_l * arcsecToRad)
          * (tnfwMassEnclosed R L.Rs L.tau L.M0 / R) * u / R - a * (u / R) =
        L.d_ls / L.d_s * (4 * L.Gc2 * radToArcsec) / (L.d_l * arcsecToRad) / R * (u / R)
          * (tnfwMassEnclosed R L.Rs L.tau L.M0 - L.massIn R) := by
      simp only [a]
      field_simp
    have e2 : a * (u / R) = L.d_ls / L.d_s * (4 * L.Gc2 * radToArcsec) / (L.d_l * arcsecToRad) / R * (u / R) * L.massIn R := by
      simp only [a]
      field_simp
    rw [e1, e2]
    have h := mul_le_mul_of_nonneg_left hm
      (abs_nonneg (L.d_ls / L.d_s * (4 * L.Gc2 * radToArcsec) / (L.d_l * arcsecToRad) / R * (u / R)))
    nth_rewrite 2 [← abs_of_nonneg hm0] at h
    rw [← abs_mul, mul_left_comm |_|, ← abs_mul] at h
    exact h
  rw [L.deflection_eq hs hxy]
  exact ⟨key _, key _⟩

/-! ### The mass of the convergence -/

theorem measurable_tnfwF : Measurable tnfwF := by
  unfold tnfwF
  simp only
  refine Measurable.ite (measurableSet_lt measurable_id measurable_const) ?_ (Measurable.ite (measurableSet_lt measurable_const measurable_id) ?_ ?_)
  · unfold arcosh
    fun_prop
  · have := measurable_arccos
    fun_prop
  · fun_prop

theorem TNFW.measurable_convergence (L : TNFW) : Measurable fun p : ℝ × ℝ => L.convergence p.1 p.2 := by
  have hF := measurable_tnfwF
  simp only [TNFW.convergence, translateRotate, tnfwL]
  refine Measurable.div_const (Measurable.mul_const (Measurable.const_mul ?_ _) _) _
  refine Measurable.add (Measurable.add (Measurable.add ?_ ?_) ?_) ?_
  · refine Measurable.ite (measurableSet_eq_fun (by fun_prop) measurable_const) (by fun_prop) ?_
    have : Measurable fun p : ℝ × ℝ => tnfwF ((√((p.1 - L.x0) ^ 2 + (p.2 - L.y0) ^ 2) + L.s) / L.Rs) := hF.comp (by fun_prop)
    fun_prop
  · have : Measurable fun p : ℝ × ℝ => tnfwF ((√((p.1 - L.x0) ^ 2 + (p.2 - L.y0) ^ 2) + L.s) / L.Rs) := hF.comp (by fun_prop)
    fun_prop
  · fun_prop
  · fun_prop

/-- `mass_enclosed_2d` is the integral of the returned convergence to 1.5 parts in ten thousand, for discs of every radius:
C80 without its restriction to discs inside the scale radius. -/
theorem C107_convergence_mass (L : TNFW) (hL : L.Ok) (hM : 0 < L.M0) (hs : L.s = 0) (R : ℝ) (hR : 0 < R) :
    |L.sigmacr * (L.d_l * arcsecToRad) ^ 2 * (∫ p in skyDisc L.x0 L.y0 R, L.convergence p.1 p.2) -
      tnfwMassEnclosed R L.Rs L.tau L.M0| ≤ 15 / 100000 * tnfwMassEnclosed R L.Rs L.tau L.M0 := by
  have h0 := L.sigmacr_pos hL
  have ha := arcsecToRad_pos
  have hdl := hL.d_l
  have ht := hL.tau
  have hm := C107_mass L hL hM.le R hR
  have hmass : 0 < L.massIn R := by
    rw [L.massIn_eq hL hM.le R hR]
    have := tnfwMb_pos ht (div_pos hR hL.Rs)
    positivity
  have hi : IntegrableOn (fun p : ℝ × ℝ => L.sigma p.1 p.2) (skyDisc L.x0 L.y0 R) := by
    by_contra h
    rw [TNFW.massIn, integral_undef h, mul_zero] at hmass
    exact lt_irrefl _ hmass
  have hae : ∀ᵐ p : ℝ × ℝ ∂volume.restrict (skyDisc L.x0 L.y0 R), p ≠ (L.x0, L.y0) := by
    refine ae_restrict_of_ae ?_
    rw [ae_iff]; simp
  have hsig : ∀ p : ℝ × ℝ, p ≠ (L.x0, L.y0) → 0 ≤ L.sigma p.1 p.2 := fun p hp => by
    rw [L.sigma_eq hL p.1 p.2 hp]
    have := tnfwK_pos (L.radius_pos hL (x := p.1) (y := p.2) hp) ht
    have := pi_pos
    positivity
  have hdiff : ∀ᵐ p : ℝ × ℝ ∂volume.restrict (skyDisc L.x0 L.y0 R),
      ‖L.convergence p.1 p.2 * L.sigmacr - L.sigma p.1 p.2‖ ≤ 14 / 100000 * L.sigma p.1 p.2 := by
    filter_upwards [hae] with p hp
    have := C107_convergence L hL hs p.1 p.2 hp
    rwa [abs_of_nonneg (hsig p hp)] at this
  have hid : IntegrableOn (fun p : ℝ × ℝ => L.convergence p.1 p.2 * L.sigmacr - L.sigma p.1 p.2) (skyDisc L.x0 L.y0 R) :=
    (hi.const_mul (14 / 100000)).mono' ((L.measurable_convergence.mul_const _).aestronglyMeasurable.sub hi.1) hdiff
  have hk : IntegrableOn (fun p : ℝ × ℝ => L.convergence p.1 p.2 * L.sigmacr) (skyDisc L.x0 L.y0 R) := by
    refine (hid.add hi).congr (Filter.Eventually.of_forall fun p => ?_)
    simp
  have hint := norm_integral_le_of_norm_le (hi.const_mul (14 / 100000)) hdiff
  rw [integral_sub hk hi, integral_const_mul, integral_mul_const, norm_eq_abs] at hint
  set I := ∫ p in skyDisc L.x0 L.y0 R, L.convergence p.1 p.2 with hI
  have hc : 0 < (L.d_l * arcsecToRad) ^ 2 := by positivity
  have h1 : |L.sigmacr * (L.d_l * arcsecToRad) ^ 2 * I - L.massIn R| ≤ 14 / 100000 * L.massIn R := by
    have h := mul_le_mul_of_nonneg_left hint hc.le
    rw [← abs_of_pos hc, ← abs_mul, abs_of_pos hc] at h
    have e1 : (L.d_l * arcsecToRad) ^ 2 * (I * L.sigmacr - ∫ p in skyDisc L.x0 L.y0 R, L.sigma p.1 p.2) =
        L.sigmacr * (L.d_l * arcsecToRad) ^ 2 * I - L.massIn R := by rw [TNFW.massIn]; ring
    rw [e1] at h
    rw [TNFW.massIn] at h ⊢
    linarith
  obtain ⟨a1, a2⟩ := abs_le.1 h1
  obtain ⟨b1, b2⟩ := abs_le.1 hm
  rw [abs_le]
  constructor <;> linarith

/-! ### Derivatives inside the window -/

theorem window_nhds {e g : ℝ} (h : |g - 1| < e) : ∀ᶠ y in nhds g, |y - 1| ≤ e := by
  have hc : ContinuousAt (fun y : ℝ => |y - 1|) g := by fun_prop
  filter_upwards [hc.tendsto.eventually_lt_const h] with y hy using hy.le

theorem hasDerivAt_tnfwF_window {g : ℝ} (h : |g - 1| < 1e-2) : HasDerivAt tnfwF (-2 / 3 + 14 * (g - 1) / 15) g := by
  refine (hasDerivAt_ringS g).congr_of_eventuallyEq ?_
  filter_upwards [window_nhds h] with y hy using tnfwF_window hy

/-- How much the derivative of the mass in the window misses the density. -/
noncomputable def tnfwGap (t g : ℝ) : ℝ :=
  if g = 1 then 0 else (t ^ 2 + 1 + 2 * (g ^ 2 - 1)) * (12 / 5 * (g - 1) ^ 3 + 7 / 5 * (g - 1) ^ 4) / (g ^ 2 * (g ^ 2 - 1))

theorem sq_sub_one_ne {g : ℝ} (hg : 0 < g) (h1 : g ≠ 1) : g ^ 2 - 1 ≠ 0 := by
  intro h
  apply h1
  have : (g - 1) * (g + 1) = 0 := by linear_combination h
  rcases mul_eq_zero.mp this with h | h <;> linarith

theorem hasDerivAt_tnfwMass_window {g t : ℝ} (M0 : ℝ) (h0 : 0 < g) (ht : 0 < t) (h : |g - 1| < 1e-2) :
    HasDerivAt (fun g => tnfwMassEnclosed g 1 t M0)
      (M0 * (t ^ 2 / (t ^ 2 + 1) ^ 2) * g * ((if g = 1 then (t ^ 2 + 1) / 3 else (t ^ 2 + 1) * (1 - tnfwF g) / (g ^ 2 - 1))
        + 2 * tnfwF g + -π / √(t ^ 2 + g ^ 2) + (t ^ 2 - 1) * tnfwL g t / (t * √(t ^ 2 + g ^ 2)) + tnfwGap t g)) g := by
  have hF := hasDerivAt_tnfwF_window h
  have hL := hasDerivAt_tnfwL h0 ht
  have hq := hasDerivAt_sqrt_add_sq (a := t ^ 2) (x := g) (by positivity)
  have hw : 0 < √(t ^ 2 + g ^ 2) := sqrt_pos.mpr (by positivity)
  have h2 : HasDerivAt (fun g : ℝ => t ^ 2 + 1 + 2 * (g ^ 2 - 1)) (4 * g) g := by
    refine (((((hasDerivAt_id g).pow 2).sub_const 1).const_mul 2).const_add _).congr_deriv ?_
    simp; ring
  have hd := (((((h2.mul hF).add_const (t * π)).add_const ((t ^ 2 - 1) * log t)).add
    (hq.mul (((hL.const_mul (t ^ 2 - 1)).div_const t).const_add (-π)))).const_mul
      (M0 * (t ^ 2 / (t ^ 2 + 1) ^ 2)))
  have e : (fun g => tnfwMassEnclosed g 1 t M0) = fun g =>
      M0 * (t ^ 2 / (t ^ 2 + 1) ^ 2) * ((t ^ 2 + 1 + 2 * (g ^ 2 - 1)) * tnfwF g + t * π
        + (t ^ 2 - 1) * log t + √(t ^ 2 + g ^ 2) * (-π + (t ^ 2 - 1) * tnfwL g t / t)) := by
    funext g
    simp [tnfwMassEnclosed]
  rw [e]
  refine hd.congr_deriv ?_
  rw [mul_assoc (M0 * (t ^ 2 / (t ^ 2 + 1) ^ 2)) g]
  congr 1
  rw [tnfwF_window h.le]
  rcases eq_or_ne g 1 with rfl | h1
  · have e1 : ringS 1 = 1 := by norm_num [ringS]
    rw [if_pos rfl, tnfwGap, if_pos rfl, e1]
    generalize √(t ^ 2 + 1 ^ 2) = w at *
    generalize tnfwL 1 t = L
    field_simp
    ring
  · have hne := sq_sub_one_ne h0 h1
    have ho := ringS_ode g
    rw [if_neg h1, tnfwGap, if_neg h1]
    generalize √(t ^ 2 + g ^ 2) = w at *
    generalize tnfwL g t = L
    have hS : -2 / 3 + 14 * (g - 1) / 15 = (1 + (12 / 5 * (g - 1) ^ 3 + 7 / 5 * (g - 1) ^ 4) - g ^ 2 * ringS g) / (g * (g ^ 2 - 1)) := by
      rw [eq_div_iff (by positivity), ← ho]; ring
    rw [hS]
    generalize ringS g = S
    generalize 12 / 5 * (g - 1) ^ 3 + 7 / 5 * (g - 1) ^ 4 = r
    field_simp
    ring

theorem tnfwGap_err {t g : ℝ} (ht : 0 < t) (h : |g - 1| < 1e-2) :
    |t ^ 2 / (t ^ 2 + 1) ^ 2 * tnfwGap t g| ≤ 9 / 10000 * tnfwK t g := by
  have hK := tnfwK_window ht h.le
  obtain ⟨hs1, hs2, hs3⟩ := window_sq h.le
  set p := t ^ 2 / (t ^ 2 + 1) with hp
  have hp0 : 0 < p := by positivity
  have ea : t ^ 2 / (t ^ 2 + 1) ^ 2 = p / (t ^ 2 + 1) := by rw [hp]; field_simp
  have hd : |g - 1| ≤ 1 / 100 := by norm_num at h ⊢; exact h.le
  have hd0 := abs_nonneg (g - 1)
  have hG : |tnfwGap t g| ≤ (t ^ 2 + 1) * (13 / 100000) := by
    unfold tnfwGap
    split_ifs with hg
    · rw [abs_zero]; positivity
    · have hg0 : 0 < |g - 1| := abs_pos.2 (sub_ne_zero.2 hg)
      have hf : |t ^ 2 + 1 + 2 * (g ^ 2 - 1)| ≤ (t ^ 2 + 1) * (1041 / 1000) := by
        have := abs_add_le (t ^ 2 + 1) (2 * (g ^ 2 - 1))
        rw [abs_mul, abs_two, abs_of_pos (show 0 < t ^ 2 + 1 by positivity)] at this
        nlinarith [sq_nonneg t]
      have hr : |12 / 5 * (g - 1) ^ 3 + 7 / 5 * (g - 1) ^ 4| ≤ 2415 / 1000 * (1 / 100) ^ 2 * |g - 1| := by
        have e : 12 / 5 * (g - 1) ^ 3 + 7 / 5 * (g - 1) ^ 4 = (g - 1) ^ 2 * (12 / 5 + 7 / 5 * (g - 1)) * (g - 1) := by ring
        rw [e, abs_mul, abs_mul]
        refine mul_le_mul_of_nonneg_right ?_ hd0
        have h1 : |(g - 1) ^ 2| ≤ (1 / 100) ^ 2 := by rw [abs_pow]; gcongr
        have h2 : |12 / 5 + 7 / 5 * (g - 1)| ≤ 2415 / 1000 := by
          obtain ⟨a, b⟩ := abs_le.1 hd
          rw [abs_le]; constructor <;> linarith
        calc |(g - 1) ^ 2| * |12 / 5 + 7 / 5 * (g - 1)| ≤ (1 / 100) ^ 2 * (2415 / 1000) := by gcongr
          _ = _ := by ring
      have hg2 : 9801 / 10000 ≤ g ^ 2 := by
        obtain ⟨a, b⟩ := abs_le.1 hd
        nlinarith
      rw [abs_div, abs_mul, abs_mul, abs_of_pos (show 0 < g ^ 2 by linarith), div_le_iff₀ (by
        have : 0 < |g ^ 2 - 1| := by linarith
        have : 0 < g ^ 2 := by linarith
        positivity)]
      calc _ ≤ (t ^ 2 + 1) * (1041 / 1000) * (2415 / 1000 * (1 / 100) ^ 2 * |g - 1|) := by gcongr
        _ ≤ (t ^ 2 + 1) * (13 / 100000) * (9801 / 10000 * (199 / 100 * |g - 1|)) := by
          have : 0 ≤ (t ^ 2 + 1) * |g - 1| := by positivity
          nlinarith
        _ ≤ _ := by gcongr
  rw [abs_mul, ea, abs_of_pos (show 0 < p / (t ^ 2 + 1) by positivity)]
  calc p / (t ^ 2 + 1) * |tnfwGap t g| ≤ p / (t ^ 2 + 1) * ((t ^ 2 + 1) * (13 / 100000)) := by gcongr
    _ = p * (13 / 100000) := by field_simp
    _ ≤ 9 / 10000 * tnfwK t g := by nlinarith

/-- Inside the window too the deflection has no curl and half its divergence is the returned convergence, here to a part
in a thousand. -/
theorem C107_divergence (L : TNFW) (hL : L.Ok) (hM : 0 ≤ L.M0) (hs : L.s = 0) (x y : ℝ) (hxy : (x, y) ≠ (L.x0, L.y0))
    (hw : |L.radius x y - 1| < 1e-2) :
    ∃ k, HasKappa L.deflection k x y ∧ |k - L.convergence x y| ≤ 1 / 1000 * L.convergence x y := by
  have h' := sub_ne_zero_or hxy
  have hR := Caustics.radius_pos h'
  have hRs := hL.Rs
  have hr := L.radius_pos hL hxy
  have ha := arcsecToRad_pos
  have hdl := hL.d_l; have hds := hL.d_s; have hdls := hL.d_ls; have hG := hL.G
  have hpi := pi_pos
  have ht := hL.tau
  have h0 := L.sigmacr_pos hL
  have hk : HasDerivAt (fun R : ℝ => R / L.Rs) (1 / L.Rs) (√((x - L.x0) ^ 2 + (y - L.y0) ^ 2)) :=
    (hasDerivAt_id _).div_const L.Rs
  have hc := HasDerivAt.comp (h₂ := fun g => tnfwMassEnclosed g 1 L.tau L.M0)
    (h := fun R : ℝ => R / L.Rs) _ (hasDerivAt_tnfwMass_window L.M0 hr ht hw) hk
  have hd := (hc.div (hasDerivAt_id _) hR.ne').const_mul
    (L.d_ls / L.d_s * (4 * L.Gc2 * radToArcsec) / (L.d_l * arcsecToRad))
  set C := L.M0 / (2 * π * (L.Rs * L.d_l * arcsecToRad) ^ 2) / L.sigmacr with hC
  have hC0 : 0 ≤ C := by rw [hC]; positivity
  refine ⟨L.convergence x y + C * (L.tau ^ 2 / (L.tau ^ 2 + 1) ^ 2 * tnfwGap L.tau (L.radius x y)),
    ((hasKappa_shift (hasKappa_radial h' hd)).congr ?_).congr_near ?_, ?_⟩
  · have hcv : L.convergence x y = C * (L.tau ^ 2 / (L.tau ^ 2 + 1) ^ 2 *
      ((if L.radius x y = 1 then (L.tau ^ 2 + 1) / 3
          else (L.tau ^ 2 + 1) * (1 - tnfwF (L.radius x y)) / (L.radius x y ^ 2 - 1))
        + 2 * tnfwF (L.radius x y) + -π / √(L.tau ^ 2 + L.radius x y ^ 2)
        + (L.tau ^ 2 - 1) * tnfwL (L.radius x y) L.tau / (L.tau * √(L.tau ^ 2 + L.radius x y ^ 2)))) := by
      rw [tnfw_shape]
      refine mul_right_cancel₀ h0.ne' ?_
      rw [L.convergence_all hs]
      ring
    rw [hcv]
    simp only [radToArcsec_eq, id, Pi.div_apply, Function.comp]
    have hx : √((x - L.x0) ^ 2 + (y - L.y0) ^ 2) / L.Rs = L.radius x y := rfl
    have hRe : √((x - L.x0) ^ 2 + (y - L.y0) ^ 2) = L.radius x y * L.Rs := by
      rw [← hx]; field_simp
    rw [hx, hRe, hC, hL.sigmacr]
    generalize tnfwGap L.tau (L.radius x y) = Gp
    generalize (if L.radius x y = 1 then (L.tau ^ 2 + 1) / 3
          else (L.tau ^ 2 + 1) * (1 - tnfwF (L.radius x y)) / (L.radius x y ^ 2 - 1)) = A
    generalize L.radius x y = X at *
    generalize tnfwMassEnclosed _ _ _ _ = M
    have hq := sqrt_pos.mpr (show 0 < L.tau ^ 2 + X ^ 2 by positivity)
    generalize tnfwF X = F
    generalize tnfwL X L.tau = l
    field_simp
    ring
  · have hne : ∀ᶠ p : ℝ × ℝ in nhds (x, y), p ≠ (L.x0, L.y0) := isOpen_ne.mem_nhds hxy
    filter_upwards [hne] with p hp
    rw [L.deflection_eq hs (x := p.1) (y := p.2) hp]
    rfl
  · rw [add_sub_cancel_left, abs_mul, abs_of_nonneg hC0]
    have hgap := tnfwGap_err ht hw
    have hcv : L.convergence x y = C * (tnfwK L.tau (L.radius x y) + L.tau ^ 2 / (L.tau ^ 2 + 1) ^ 2 *
        ((if L.radius x y = 1 then 0 else -((L.tau ^ 2 + 1) * (tnfwF (L.radius x y) - ringF (L.radius x y)) / (L.radius x y ^ 2 - 1)))
          + 2 * (tnfwF (L.radius x y) - ringF (L.radius x y)))) := by
      refine mul_right_cancel₀ h0.ne' ?_
      rw [L.convergence_all hs]
      ring
    have hK := tnfwK_pos hr ht
    have he := tnfw_shape_err (g := L.radius x y) ht
    rw [abs_of_pos hK] at he
    rw [hcv, mul_left_comm (1 / 1000 : ℝ)]
    refine mul_le_mul_of_nonneg_left ?_ hC0
    have := (abs_le.1 he).1
    linarith

/-! ### The gradient of the potential inside the window -/

/-- lenses/func/tnfw.py:342. -/
theorem tnfwP_window {x : ℝ} (h : |x - 1| ≤ 1e-3) : tnfwP x = 2 * (x - 1) - 5 * (x - 1) ^ 2 / 3 := by
  obtain ⟨h1, h2⟩ := abs_le.1 h
  unfold tnfwP
  simp only
  rw [if_neg (by linarith), if_neg (by linarith)]

/-- The derivative of `_P_tnfw` in the window of `_F_tnfw`, off the edges of its own window. -/
theorem hasDerivAt_tnfwP_window {g : ℝ} (h0 : 0 < g) (h : |g - 1| < 1e-2) (h3 : |g - 1| ≠ 1e-3) :
    ∃ P', HasDerivAt tnfwP P' g ∧ |g * P' - 2 * ringS g| ≤ 1 / 200000 := by
  have hd : |g - 1| ≤ 1 / 100 := by norm_num at h ⊢; exact h.le
  rcases lt_or_gt_of_ne h3 with h3 | h3
  · have hp : HasDerivAt (fun x : ℝ => 2 * (x - 1) - 5 * (x - 1) ^ 2 / 3) (2 - 10 * (g - 1) / 3) g := by
      have h1 : HasDerivAt (fun x : ℝ => x - 1) 1 g := (hasDerivAt_id g).sub_const 1
      refine ((h1.const_mul 2).sub (((h1.pow 2).const_mul 5).div_const 3)).congr_deriv ?_
      simp; ring
    refine ⟨_, hp.congr_of_eventuallyEq ?_, ?_⟩
    · filter_upwards [window_nhds h3] with y hy using tnfwP_window hy
    · have e : g * (2 - 10 * (g - 1) / 3) - 2 * ringS g = -(64 / 15) * (g - 1) ^ 2 := by unfold ringS; ring
      have hd3 : |g - 1| ≤ 1 / 1000 := by norm_num at h3 ⊢; exact h3.le
      rw [e, abs_mul, abs_pow]
      have : |g - 1| ^ 2 ≤ (1 / 1000) ^ 2 := by gcongr
      norm_num at this ⊢
      linarith
  · have h1 := ne_one_of_window (by norm_num) h3
    refine ⟨_, (hasDerivAt_ringP h0 h1).congr_of_eventuallyEq ?_, ?_⟩
    · filter_upwards [window_open _ _ h3] with y hy using tnfwP_eq hy
    · have e : g * (2 * ringF g / g) - 2 * ringS g = -2 * (ringS g - ringF g) := by field_simp; ring
      rw [e, abs_mul]
      have := ringF_err h.le
      have h2 : |g - 1| ^ 3 ≤ (1 / 100) ^ 3 := by gcongr
      norm_num at this h2 ⊢
      linarith

theorem tnfwBracket_deriv_window {g t P' : ℝ} (h0 : 0 < g) (ht : 0 < t) (h : |g - 1| < 1e-2) (hP : HasDerivAt tnfwP P' g) :
    HasDerivAt (tnfwBracket t) ((2 * t ^ 2 * ((t ^ 2 + 1 + 2 * (g ^ 2 - 1)) * ringS g + t * π + (t ^ 2 - 1) * log t
      + √(t ^ 2 + g ^ 2) * (-π + (t ^ 2 - 1) * tnfwL g t / t))
      + (4 * t ^ 2 * (12 / 5 * (g - 1) ^ 3 + 7 / 5 * (g - 1) ^ 4) + t ^ 2 * (t ^ 2 - 1) * (g * P' - 2 * ringS g))) / g) g := by
  have hF := hasDerivAt_tnfwF_window h
  have hL := hasDerivAt_tnfwL h0 ht
  have hq := hasDerivAt_sqrt_add_sq (a := t ^ 2) (x := g) (by positivity)
  have hw : 0 < √(t ^ 2 + g ^ 2) := sqrt_pos.mpr (by positivity)
  have hw2 : √(t ^ 2 + g ^ 2) ^ 2 = t ^ 2 + g ^ 2 := sq_sqrt (by positivity)
  have h2 : HasDerivAt (fun g : ℝ => g ^ 2) (2 * g) g := by
    refine ((hasDerivAt_id g).pow 2).congr_deriv ?_
    simp
  have hlog : HasDerivAt (fun g : ℝ => log (g ^ 2)) (2 * g / g ^ 2) g := h2.log (by positivity)
  have hlw : HasDerivAt (fun g : ℝ => log (t + √(t ^ 2 + g ^ 2)))
      (g / √(t ^ 2 + g ^ 2) / (t + √(t ^ 2 + g ^ 2))) g :=
    (hq.const_add t).log (by positivity)
  have hd := ((((((((hq.const_sub t).add (hlw.const_mul t)).const_mul (2 * π * t ^ 2)).add
    ((hq.const_mul (2 * (t ^ 2 - 1) * t)).mul hL)).add
    ((hL.pow 2).const_mul (t ^ 2 * (t ^ 2 - 1)))).add
    (((h2.sub_const 1).const_mul (4 * t ^ 2)).mul hF)).add
    (hP.const_mul (t ^ 2 * (t ^ 2 - 1)))).add
    (hlog.const_mul (t ^ 2 * ((t ^ 2 - 1) * log t - t ^ 2 - 1))))
  refine hd.congr_deriv ?_
  rw [tnfwF_window h.le, show 12 / 5 * (g - 1) ^ 3 + 7 / 5 * (g - 1) ^ 4 =
    g * (g ^ 2 - 1) * (-2 / 3 + 14 * (g - 1) / 15) + g ^ 2 * ringS g - 1 by rw [ringS_ode g]; ring]
  simp only [Nat.cast_ofNat, Nat.add_one_sub_one, pow_one]
  clear * - hw h0 ht hw2
  generalize ringS g = S
  generalize tnfwL g t = L
  generalize log t = lt
  generalize √(t ^ 2 + g ^ 2) = w at hw hw2 ⊢
  have e1 : g / w / (t + w) = (w - t) / (g * w) := by
    field_simp
    linear_combination -hw2
  rw [e1]
  field_simp
  linear_combination (90 * π * t - 90 * t ^ 2 * L + 90 * L) * hw2

theorem hasDerivAt_tnfwBracket_window {g t : ℝ} (h0 : 0 < g) (ht : 0 < t) (h : |g - 1| < 1e-2) (h3 : |g - 1| ≠ 1e-3) :
    ∃ c, |c| ≤ 1 / 10000 ∧
      HasDerivAt (tnfwBracket t) (2 * (t ^ 2 + 1) ^ 2 * ((1 + c) * tnfwMassEnclosed g 1 t 1) / g) g := by
  obtain ⟨P', hP, hPe⟩ := hasDerivAt_tnfwP_window h0 h h3
  have hMb := tnfwMb_pos ht h0
  have hme := tnfw_mass_err ht h0
  have hlow : (t ^ 2 + 1) * (784 / 10000) ≤ tnfwMb t g := by
    refine le_trans ?_ (tnfwMb_lower ht h0)
    have hK := tnfwK_window ht h.le
    obtain ⟨hs1, hs2, hs3⟩ := window_sq h.le
    have h1 : 98 / 100 / 2 * (4 / 25 * (t ^ 2 / (t ^ 2 + 1))) ≤ g ^ 2 / 2 * tnfwK t g := by gcongr
    refine le_trans (le_of_eq ?_) (mul_le_mul_of_nonneg_left h1 (by positivity))
    field_simp
    norm_num
  -- the bracket of the mass as computed
  set B := (t ^ 2 + 1 + 2 * (g ^ 2 - 1)) * ringS g + t * π + (t ^ 2 - 1) * log t
    + √(t ^ 2 + g ^ 2) * (-π + (t ^ 2 - 1) * tnfwL g t / t) with hB
  have hBm : tnfwMassEnclosed g 1 t 1 = t ^ 2 / (t ^ 2 + 1) ^ 2 * B := by
    simp only [tnfwMassEnclosed, div_one, tnfwF_window h.le, one_mul, hB]
  have hBe : B = tnfwMb t g + (t ^ 2 + 1 + 2 * (g ^ 2 - 1)) * (tnfwF g - ringF g) := by
    rw [hB, tnfwMb, tnfwF_window h.le]; ring
  have hBlow : (t ^ 2 + 1) * (783 / 10000) ≤ B := by
    have := (abs_le.1 hme).1
    rw [hBe]
    nlinarith [sq_nonneg t]
  have hB0 : 0 < B := lt_of_lt_of_le (by positivity) hBlow
  set r := 12 / 5 * (g - 1) ^ 3 + 7 / 5 * (g - 1) ^ 4 with hr
  set e := 4 * t ^ 2 * r + t ^ 2 * (t ^ 2 - 1) * (g * P' - 2 * ringS g) with he
  have hre : |r| ≤ 1 / 400000 := by
    have hd : |g - 1| ≤ 1 / 100 := by norm_num at h ⊢; exact h.le
    have e1 : r = (g - 1) ^ 3 * (12 / 5 + 7 / 5 * (g - 1)) := by rw [hr]; ring
    rw [e1, abs_mul, abs_pow]
    have a1 : |g - 1| ^ 3 ≤ (1 / 100) ^ 3 := by gcongr
    have a2 : |12 / 5 + 7 / 5 * (g - 1)| ≤ 2415 / 1000 := by
      obtain ⟨a, b⟩ := abs_le.1 hd
      rw [abs_le]; constructor <;> linarith
    calc _ ≤ (1 / 100) ^ 3 * (2415 / 1000 : ℝ) := by gcongr
      _ ≤ _ := by norm_num
  refine ⟨e / (2 * t ^ 2 * B), ?_, (tnfwBracket_deriv_window h0 ht h hP).congr_deriv ?_⟩
  · rw [abs_div, abs_of_pos (show 0 < 2 * t ^ 2 * B by positivity), div_le_iff₀ (by positivity)]
    have h1 : |e| ≤ t ^ 2 * ((t ^ 2 + 1) * (3 / 200000)) := by
      rw [he]
      have e1 : 4 * t ^ 2 * r + t ^ 2 * (t ^ 2 - 1) * (g * P' - 2 * ringS g) =
          t ^ 2 * (4 * r + (t ^ 2 - 1) * (g * P' - 2 * ringS g)) := by ring
      rw [e1, abs_mul, abs_of_pos (show 0 < t ^ 2 by positivity)]
      refine mul_le_mul_of_nonneg_left ((abs_add_le _ _).trans ?_) (by positivity)
      rw [abs_mul, abs_mul]
      have hb : |t ^ 2 - 1| ≤ t ^ 2 + 1 := by
        rw [abs_le]; constructor <;> nlinarith [sq_nonneg t]
      have := mul_le_mul hb hPe (abs_nonneg _) (by positivity)
      have h4 : |(4 : ℝ)| = 4 := by norm_num
      rw [h4]
      nlinarith [sq_nonneg t]
    refine h1.trans ?_
    have : t ^ 2 * ((t ^ 2 + 1) * (783 / 10000)) ≤ t ^ 2 * B := by gcongr
    nlinarith [show 0 ≤ t ^ 2 * (t ^ 2 + 1) by positivity]
  · have hc : 2 * (t ^ 2 + 1) ^ 2 * ((1 + e / (2 * t ^ 2 * B)) * tnfwMassEnclosed g 1 t 1) / g = (2 * t ^ 2 * B + e) / g := by
      rw [hBm]; field_simp
    rw [hc]

/-- Inside the window, off the two radii where `_P_tnfw` switches, the gradient of the potential is the deflection times a
factor within a ten-thousandth of one. -/
theorem C107_gradient (L : TNFW) (hL : L.Ok) (hs : L.s = 0) (x y : ℝ) (hxy : (x, y) ≠ (L.x0, L.y0))
    (hw : |L.radius x y - 1| < 1e-2) (hw3 : |L.radius x y - 1| ≠ 1e-3) :
    ∃ c, |c| ≤ 1 / 10000 ∧ HasGrad L.potential ((1 + c) * (L.deflection x y).1) ((1 + c) * (L.deflection x y).2) x y := by
  have h' := sub_ne_zero_or hxy
  have hR := Caustics.radius_pos h'
  have hRs := hL.Rs
  have hr := L.radius_pos hL hxy
  have ha := arcsecToRad_pos
  have hdl := hL.d_l; have hds := hL.d_s; have hdls := hL.d_ls; have hG := hL.G
  have ht := hL.tau
  have hk : HasDerivAt (fun R : ℝ => R / L.Rs) (1 / L.Rs) (√((x - L.x0) ^ 2 + (y - L.y0) ^ 2)) :=
    (hasDerivAt_id _).div_const L.Rs
  obtain ⟨c, hc1, hb⟩ := hasDerivAt_tnfwBracket_window hr ht hw hw3
  have hc := HasDerivAt.comp (h₂ := tnfwBracket L.tau) (h := fun R : ℝ => R / L.Rs) _ hb hk
  have hd := ((hc.sub_const (L.tau ^ 2 * ((L.tau ^ 2 - 1) * log L.tau * log (4 * L.tau)
    + 2 * log (L.tau / 2) - 2 * L.tau * (L.tau - π) * log (2 * L.tau)))).const_mul
    (2 * L.M0 * L.Gc2 * (L.d_ls / L.d_s) / (L.d_l * arcsecToRad ^ 2) * (1 / (L.tau ^ 2 + 1) ^ 2)))
  have e : L.potential = fun x y =>
      2 * L.M0 * L.Gc2 * (L.d_ls / L.d_s) / (L.d_l * arcsecToRad ^ 2) * (1 / (L.tau ^ 2 + 1) ^ 2)
        * (tnfwBracket L.tau (√((x - L.x0) ^ 2 + (y - L.y0) ^ 2) / L.Rs)
          - L.tau ^ 2 * ((L.tau ^ 2 - 1) * log L.tau * log (4 * L.tau)
    + 2 * log (L.tau / 2) - 2 * L.tau * (L.tau - π) * log (2 * L.tau))) := by
    funext x y
    simp only [TNFW.potential, translateRotate, hs, add_zero, tnfwBracket]
  refine ⟨c, hc1, ?_⟩
  rw [e, L.deflection_eq hs hxy]
  have hM : ∀ g, tnfwMassEnclosed g 1 L.tau L.M0 = L.M0 * tnfwMassEnclosed g 1 L.tau 1 := by
    intro g; simp only [tnfwMassEnclosed]; ring
  refine (hasGrad_shift (hasGrad_radial h' hd)).congr ?_ ?_ <;>
  · simp only [hM, radToArcsec_eq, TNFW.radius]
    generalize tnfwMassEnclosed _ 1 L.tau 1 = M
    field_simp
    try ring

/-! ### Its edges -/

/-- The enclosed mass jumps at the outer edge of the window, for every lens with mass. -/
theorem C107_jump_fails (L : TNFW) (hL : L.Ok) (hM : L.M0 ≠ 0) :
    ¬ ContinuousAt (fun r => tnfwMassEnclosed r L.Rs L.tau L.M0) ((1 + 1e-2) * L.Rs) := by
  intro h
  have ht := hL.tau
  have hRs := hL.Rs
  have hc : ContinuousAt (fun g => tnfwMassEnclosed (g * L.Rs) L.Rs L.tau L.M0) (1 + 1e-2) :=
    ContinuousAt.comp (f := fun g => g * L.Rs) (g := fun r => tnfwMassEnclosed r L.Rs L.tau L.M0) h (by fun_prop)
  have hfun : (fun g => tnfwMassEnclosed (g * L.Rs) L.Rs L.tau L.M0) = fun g => L.M0 * (L.tau ^ 2 / (L.tau ^ 2 + 1) ^ 2) *
    (tnfwMb L.tau g + (L.tau ^ 2 + 1 + 2 * (g ^ 2 - 1)) * (tnfwF g - ringF g)) := by
    funext g
    rw [tnfwMass_all, mul_div_assoc, div_self hRs.ne', mul_one]
  rw [hfun] at hc
  have hk : L.M0 * (L.tau ^ 2 / (L.tau ^ 2 + 1) ^ 2) ≠ 0 := mul_ne_zero hM (by positivity)
  have hMb := (hasDerivAt_tnfwMb_all ht (show (0 : ℝ) < 1 + 1e-2 by norm_num)).continuousAt
  have lim1 := hc.tendsto.mono_left (nhdsWithin_le_nhds (s := Ioi (1 + 1e-2 : ℝ)))
  have lim2 : Filter.Tendsto (fun g => L.M0 * (L.tau ^ 2 / (L.tau ^ 2 + 1) ^ 2) *
      (tnfwMb L.tau g + (L.tau ^ 2 + 1 + 2 * (g ^ 2 - 1)) * (tnfwF g - ringF g))) (nhdsWithin (1 + 1e-2) (Ioi (1 + 1e-2)))
      (nhds (L.M0 * (L.tau ^ 2 / (L.tau ^ 2 + 1) ^ 2) * tnfwMb L.tau (1 + 1e-2))) := by
    refine ((hMb.tendsto.const_mul _).mono_left nhdsWithin_le_nhds).congr' ?_
    filter_upwards [self_mem_nhdsWithin] with g hg
    have hg' : (1 + 1e-2 : ℝ) < g := hg
    rw [tnfwF_eq (by rw [abs_of_pos (by norm_num at hg' ⊢; linarith)]; linarith), sub_self, mul_zero, add_zero]
  have := tendsto_nhds_unique lim1 lim2
  have h2 := mul_left_cancel₀ hk this
  have hE : 0 < tnfwF (1 + 1e-2) - ringF (1 + 1e-2) := by
    rw [tnfwF_window (by norm_num)]
    exact (ringS_err_gt (by norm_num)).1
  have hp : 0 < L.tau ^ 2 + 1 + 2 * ((1 + 1e-2 : ℝ) ^ 2 - 1) := by
    have : (0 : ℝ) < (1 + 1e-2) ^ 2 - 1 := by norm_num
    positivity
  have := mul_pos hp hE
  linarith

/-! ### Examples: the ring at the scale radius, where the exact formula reads `0 / 0` -/

example := C107_convergence tnfwSample tnfwSample_ok rfl 1 0 (by norm_num [tnfwSample])

example := C107_mass tnfwSample tnfwSample_ok (by norm_num [tnfwSample]) 1 one_pos

example := C107_deflection tnfwSample tnfwSample_ok (by norm_num [tnfwSample]) rfl 1 0 (by norm_num [tnfwSample])

example := C107_convergence_mass tnfwSample tnfwSample_ok (by norm_num [tnfwSample]) rfl 4 (by norm_num)

example := C107_divergence tnfwSample tnfwSample_ok (by norm_num [tnfwSample]) rfl 1 0 (by norm_num [tnfwSample])
  (by norm_num [tnfwSample, TNFW.radius])

example := C107_gradient tnfwSample tnfwSample_ok rfl 1 0 (by norm_num [tnfwSample])
  (by norm_num [tnfwSample, TNFW.radius]) (by norm_num [tnfwSample, TNFW.radius])

example := C107_jump_fails tnfwSample tnfwSample_ok (by norm_num [tnfwSample])

end Caustics
