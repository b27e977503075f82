import Verif.Lemmas.Halo
import Verif.Lemmas.Polar
import Verif.Props.LensSimple

/-!
Deflection, potential and convergence of the NFW, truncated NFW and pseudo-Jaffe halos.

Inside narrow windows around the scale radius the code replaces the profile functions by constants
or short series; the statements are about radii outside those windows, and the last section says
what happens inside for the NFW convergence.
-/

open Real

namespace Caustics

theorem arcsecToRad_pos : 0 < arcsecToRad := one_div_pos.mpr radToArcsec_pos

theorem radToArcsec_eq : radToArcsec = 1 / arcsecToRad := by
  unfold arcsecToRad; rw [one_div_one_div]

/-! ### NFW -/

/-- Physical parameters; the critical surface density is the one of the same distances
(cosmology/base.py:257-288). -/
structure NFW.Ok (L : NFW) : Prop where
  G : 0 < L.Gc2
  mass : 0 < L.mass
  c : 0 < L.c
  Delta : 0 < L.Delta
  rhoc : 0 < L.rhoc
  d_l : 0 < L.d_l
  d_s : 0 < L.d_s
  d_ls : 0 < L.d_ls
  sigmacr : L.sigmacr = L.d_s / (4 * π * L.Gc2 * L.d_l * L.d_ls)

theorem NFW.rs_pos {L : NFW} (h : L.Ok) : 0 < L.rs := by
  have h1 := h.mass; have h2 := h.c; have h3 := h.Delta; have h4 := h.rhoc
  unfold NFW.rs nfwScaleRadius
  have : 0 < 3 * L.mass / (4 * π * L.Delta * L.rhoc) := by positivity
  exact div_pos (rpow_pos_of_pos this _) h2

/-- The radius of a position in units of the scale radius. -/
noncomputable def NFW.radius (L : NFW) (x y : ℝ) : ℝ :=
  L.d_l * √((x - L.x0) ^ 2 + (y - L.y0) ^ 2) * arcsecToRad / L.rs

theorem NFW.radius_pos {L : NFW} (h : L.Ok) {x y : ℝ} (hxy : (x, y) ≠ (L.x0, L.y0)) :
    0 < L.radius x y := by
  have h1 := h.d_l; have h2 := L.rs_pos h; have h3 := arcsecToRad_pos
  have h4 := Caustics.radius_pos (sub_ne_zero_or hxy)
  unfold NFW.radius
  positivity

/-- The NFW deflection is the gradient of the NFW potential. -/
theorem C23_nfw (L : NFW) (hL : L.Ok) (hs : L.s = 0) (x y : ℝ) (hxy : (x, y) ≠ (L.x0, L.y0))
    (hw : 1e-6 < |L.radius x y - 1|) :
    HasGrad L.potential (L.deflection x y).1 (L.deflection x y).2 x y := by
  have h' := sub_ne_zero_or hxy
  have hR := radius_pos h'
  have hr := L.radius_pos hL hxy
  have hrs := L.rs_pos hL
  have ha := arcsecToRad_pos
  have hdl := hL.d_l; have hds := hL.d_s; have hdls := hL.d_ls; have hG := hL.G
  have hpi := pi_pos
  have hk : HasDerivAt (fun R : ℝ => L.d_l * R * arcsecToRad / L.rs)
      (L.d_l * arcsecToRad / L.rs) (√((x - L.x0) ^ 2 + (y - L.y0) ^ 2)) := by
    refine ((((hasDerivAt_id _).const_mul L.d_l).mul_const
      arcsecToRad).div_const L.rs).congr_deriv (by ring)
  have hg := hasDerivAt_nfwG hr hw
  have hc := HasDerivAt.comp (h₂ := nfwG) (h := fun R : ℝ => L.d_l * R * arcsecToRad / L.rs) _ hg hk
  have hd := ((hc.const_mul
    (2 * nfwConvergenceS L.sigmacr L.rhoc L.mass L.c L.Delta)).mul_const (L.rs ^ 2)).div_const
      (L.d_l ^ 2 * arcsecToRad ^ 2)
  have e : L.potential = fun x y => 2 * nfwConvergenceS L.sigmacr L.rhoc L.mass L.c L.Delta
      * nfwG (L.d_l * √((x - L.x0) ^ 2 + (y - L.y0) ^ 2) * arcsecToRad / L.rs) * L.rs ^ 2
      / (L.d_l ^ 2 * arcsecToRad ^ 2) := by
    funext x y
    simp only [NFW.potential, translateRotate, hs, add_zero]
  rw [e]
  refine (hasGrad_shift (hasGrad_radial h' hd)).congr ?_ ?_ <;>
  · simp only [NFW.deflection, NFW.physicalDeflection, translateRotate, radToArcsec_eq,
      nfwConvergenceS, hL.sigmacr, hs, add_zero, NFW.radius] at hr ⊢
    change 2 * (L.rs * _ / _) * _ * L.rs ^ 2 / _ * _ / _ = _
    generalize √((x - L.x0) ^ 2 + (y - L.y0) ^ 2) = R at *
    generalize L.rs = r at *
    generalize nfwH _ = H
    generalize nfwScaleDensity _ _ _ = D
    field_simp
    try ring

/-- The NFW convergence is half the divergence of the NFW deflection. -/
theorem C24_nfw (L : NFW) (hL : L.Ok) (hs : L.s = 0) (x y : ℝ) (hxy : (x, y) ≠ (L.x0, L.y0))
    (hw : 1e-6 < |L.radius x y - 1|) :
    ∃ k, L.convergence x y = some k ∧ HasKappa L.deflection k x y := by
  have h' := sub_ne_zero_or hxy
  have hR := radius_pos h'
  have hr := L.radius_pos hL hxy
  have hrs := L.rs_pos hL
  have ha := arcsecToRad_pos
  have hdl := hL.d_l; have hds := hL.d_s; have hdls := hL.d_ls; have hG := hL.G
  have hpi := pi_pos
  have h1 := ne_one_of_window (by norm_num) hw
  have hne : L.radius x y ^ 2 - 1 ≠ 0 := by
    intro h
    apply h1
    have : (L.radius x y - 1) * (L.radius x y + 1) = 0 := by linear_combination h
    rcases mul_eq_zero.mp this with h | h <;> linarith
  refine ⟨2 * nfwConvergenceS L.sigmacr L.rhoc L.mass L.c L.Delta * nfwF (L.radius x y)
    / (L.radius x y ^ 2 - 1), ?_, ?_⟩
  · simp only [NFW.convergence, translateRotate, hs, add_zero, divOpt]
    exact if_neg hne
  have hk : HasDerivAt (fun R : ℝ => L.d_l * R * arcsecToRad / L.rs)
      (L.d_l * arcsecToRad / L.rs) (√((x - L.x0) ^ 2 + (y - L.y0) ^ 2)) := by
    refine ((((hasDerivAt_id _).const_mul L.d_l).mul_const
      arcsecToRad).div_const L.rs).congr_deriv (by ring)
  have hc := HasDerivAt.comp (h₂ := nfwH) (h := fun R : ℝ => L.d_l * R * arcsecToRad / L.rs) _
    (hasDerivAt_nfwH hr hw) hk
  set C := L.d_ls / L.d_s * (16 * π * L.Gc2 * nfwScaleDensity L.rhoc L.c L.Delta * L.rs ^ 3
    * radToArcsec / (L.d_l * arcsecToRad)) with hC
  have hd := (hc.div (hasDerivAt_id _) hR.ne').const_mul C
  have e : L.deflection = fun x y =>
      (C * (nfwH (L.d_l * √((x - L.x0) ^ 2 + (y - L.y0) ^ 2) * arcsecToRad / L.rs)
          / √((x - L.x0) ^ 2 + (y - L.y0) ^ 2)) * (x - L.x0) / √((x - L.x0) ^ 2 + (y - L.y0) ^ 2),
       C * (nfwH (L.d_l * √((x - L.x0) ^ 2 + (y - L.y0) ^ 2) * arcsecToRad / L.rs)
          / √((x - L.x0) ^ 2 + (y - L.y0) ^ 2)) * (y - L.y0)
          / √((x - L.x0) ^ 2 + (y - L.y0) ^ 2)) := by
    funext x y
    simp only [NFW.deflection, NFW.physicalDeflection, translateRotate, hs, add_zero]
    ext <;> · simp only [hC]; field_simp
  rw [e]
  refine (hasKappa_shift (hasKappa_radial h' hd)).congr ?_
  simp only [hC, radToArcsec_eq, nfwConvergenceS, hL.sigmacr, id, Pi.div_apply, Function.comp]
  rw [show nfwScaleRadius L.rhoc L.mass L.c L.Delta = L.rs from rfl]
  have hx : L.d_l * √((x - L.x0) ^ 2 + (y - L.y0) ^ 2) * arcsecToRad / L.rs = L.radius x y := rfl
  have hx2 : L.radius x y = L.d_l * √((x - L.x0) ^ 2 + (y - L.y0) ^ 2) * arcsecToRad / L.rs := rfl
  rw [hx]
  generalize L.radius x y = X at *
  generalize √((x - L.x0) ^ 2 + (y - L.y0) ^ 2) = R at *
  generalize L.rs = r at *
  generalize nfwH X = H
  generalize nfwF X = F
  generalize nfwScaleDensity _ _ _ = D
  have hRe : R = X * r / (L.d_l * arcsecToRad) := by rw [hx2]; field_simp
  rw [hRe]
  field_simp
  ring

/-! ### Truncated NFW -/

structure TNFW.Ok (L : TNFW) : Prop where
  G : 0 < L.Gc2
  Rs : 0 < L.Rs
  tau : 0 < L.tau
  d_l : 0 < L.d_l
  d_s : 0 < L.d_s
  d_ls : 0 < L.d_ls
  sigmacr : L.sigmacr = L.d_s / (4 * π * L.Gc2 * L.d_l * L.d_ls)

/-- The radius of a position in units of the scale radius. -/
noncomputable def TNFW.radius (L : TNFW) (x y : ℝ) : ℝ :=
  √((x - L.x0) ^ 2 + (y - L.y0) ^ 2) / L.Rs

theorem TNFW.deflection_eq (L : TNFW) (hs : L.s = 0) {x y : ℝ} (hxy : (x, y) ≠ (L.x0, L.y0)) :
    L.deflection x y =
      (L.d_ls / L.d_s * (4 * L.Gc2 * radToArcsec) / (L.d_l * arcsecToRad)
          * (tnfwMassEnclosed (√((x - L.x0) ^ 2 + (y - L.y0) ^ 2) / L.Rs) 1 L.tau L.M0
            / √((x - L.x0) ^ 2 + (y - L.y0) ^ 2)) * (x - L.x0) / √((x - L.x0) ^ 2 + (y - L.y0) ^ 2),
       L.d_ls / L.d_s * (4 * L.Gc2 * radToArcsec) / (L.d_l * arcsecToRad)
          * (tnfwMassEnclosed (√((x - L.x0) ^ 2 + (y - L.y0) ^ 2) / L.Rs) 1 L.tau L.M0
            / √((x - L.x0) ^ 2 + (y - L.y0) ^ 2)) * (y - L.y0)
              / √((x - L.x0) ^ 2 + (y - L.y0) ^ 2)) := by
  have h' := sub_ne_zero_or hxy
  simp only [TNFW.deflection, TNFW.physicalDeflection, translateRotate, hs, add_zero,
    cos_arctan2 h', sin_arctan2 h', tnfwMass_scale _ L.Rs]
  ext <;> · simp only; field_simp

theorem C23_tnfw (L : TNFW) (hL : L.Ok) (hs : L.s = 0) (x y : ℝ) (hxy : (x, y) ≠ (L.x0, L.y0))
    (hw : 1e-2 < |L.radius x y - 1|) :
    HasGrad L.potential (L.deflection x y).1 (L.deflection x y).2 x y := by
  have h' := sub_ne_zero_or hxy
  have hR := radius_pos h'
  have hRs := hL.Rs
  have hr : 0 < L.radius x y := div_pos hR hRs
  have ha := arcsecToRad_pos
  have hdl := hL.d_l; have hds := hL.d_s; have hdls := hL.d_ls; have hG := hL.G
  have ht := hL.tau
  have hk : HasDerivAt (fun R : ℝ => R / L.Rs) (1 / L.Rs) (√((x - L.x0) ^ 2 + (y - L.y0) ^ 2)) :=
    (hasDerivAt_id _).div_const L.Rs
  have hc := HasDerivAt.comp (h₂ := tnfwBracket L.tau) (h := fun R : ℝ => R / L.Rs) _
    (hasDerivAt_tnfwBracket hr ht hw) hk
  have hd := ((hc.sub_const (L.tau ^ 2 * ((L.tau ^ 2 - 1) * log L.tau * log (4 * L.tau)
    + 2 * log (L.tau / 2) - 2 * L.tau * (L.tau - π) * log (2 * L.tau)))).const_mul
    (2 * L.M0 * L.Gc2 * (L.d_ls / L.d_s) / (L.d_l * arcsecToRad ^ 2) * (1 / (L.tau ^ 2 + 1) ^ 2)))
  have e : L.potential = fun x y =>
      2 * L.M0 * L.Gc2 * (L.d_ls / L.d_s) / (L.d_l * arcsecToRad ^ 2) * (1 / (L.tau ^ 2 + 1) ^ 2)
        * (tnfwBracket L.tau (√((x - L.x0) ^ 2 + (y - L.y0) ^ 2) / L.Rs)
          - L.tau ^ 2 * ((L.tau ^ 2 - 1) * log L.tau * log (4 * L.tau)
    + 2 * log (L.tau / 2) - 2 * L.tau * (L.tau - π) * log (2 * L.tau))) := by
    funext x y
    simp only [TNFW.potential, translateRotate, hs, add_zero, tnfwBracket]
  rw [e, L.deflection_eq hs hxy]
  have hM : ∀ g, tnfwMassEnclosed g 1 L.tau L.M0 = L.M0 * tnfwMassEnclosed g 1 L.tau 1 := by
    intro g; simp only [tnfwMassEnclosed]; ring
  refine (hasGrad_shift (hasGrad_radial h' hd)).congr ?_ ?_ <;>
  · simp only [hM, radToArcsec_eq, TNFW.radius]
    generalize tnfwMassEnclosed _ 1 L.tau 1 = M
    field_simp
    try ring

theorem C24_tnfw (L : TNFW) (hL : L.Ok) (hs : L.s = 0) (x y : ℝ) (hxy : (x, y) ≠ (L.x0, L.y0))
    (hw : 1e-2 < |L.radius x y - 1|) :
    HasKappa L.deflection (L.convergence x y) x y := by
  have h' := sub_ne_zero_or hxy
  have hR := radius_pos h'
  have hRs := hL.Rs
  have hr : 0 < L.radius x y := div_pos hR hRs
  have ha := arcsecToRad_pos
  have hdl := hL.d_l; have hds := hL.d_s; have hdls := hL.d_ls; have hG := hL.G
  have hpi := pi_pos
  have ht := hL.tau
  have h1 := ne_one_of_window (by norm_num) hw
  have hk : HasDerivAt (fun R : ℝ => R / L.Rs) (1 / L.Rs) (√((x - L.x0) ^ 2 + (y - L.y0) ^ 2)) :=
    (hasDerivAt_id _).div_const L.Rs
  have hc := HasDerivAt.comp (h₂ := fun g => tnfwMassEnclosed g 1 L.tau L.M0)
    (h := fun R : ℝ => R / L.Rs) _ (hasDerivAt_tnfwMass L.M0 hr ht hw) hk
  have hd := (hc.div (hasDerivAt_id _) hR.ne').const_mul
    (L.d_ls / L.d_s * (4 * L.Gc2 * radToArcsec) / (L.d_l * arcsecToRad))
  refine ((hasKappa_shift (hasKappa_radial h' hd)).congr ?_).congr_near ?_
  · simp only [TNFW.convergence, translateRotate, hs, add_zero]
    have h1' : √((x - L.x0) ^ 2 + (y - L.y0) ^ 2) / L.Rs ≠ 1 := h1
    rw [if_neg h1']
    simp only [radToArcsec_eq, hL.sigmacr, id, Pi.div_apply, Function.comp]
    have hx : √((x - L.x0) ^ 2 + (y - L.y0) ^ 2) / L.Rs = L.radius x y := rfl
    have hRe : √((x - L.x0) ^ 2 + (y - L.y0) ^ 2) = L.radius x y * L.Rs := by
      rw [← hx]; field_simp
    rw [hx, hRe]
    generalize L.radius x y = X at *
    generalize tnfwMassEnclosed _ _ _ _ = M
    have hq := sqrt_pos.mpr (show 0 < L.tau ^ 2 + X ^ 2 by positivity)
    generalize (L.tau ^ 2 + 1) * (1 - tnfwF X) / (X ^ 2 - 1) = A
    generalize tnfwF X = F
    generalize tnfwL X L.tau = l
    field_simp
    ring
  · have hne : ∀ᶠ p : ℝ × ℝ in nhds (x, y), p ≠ (L.x0, L.y0) := isOpen_ne.mem_nhds hxy
    filter_upwards [hne] with p hp
    rw [L.deflection_eq hs (x := p.1) (y := p.2) hp]
    rfl

/-! ### Pseudo-Jaffe -/

structure PJaffe.Ok (L : PJaffe) : Prop where
  G : 0 < L.Gc2
  Rc : 0 < L.Rc
  Rs : 0 < L.Rs
  ne : L.Rc ≠ L.Rs
  d_l : 0 < L.d_l
  d_s : 0 < L.d_s
  d_ls : 0 < L.d_ls
  sigmacr : L.sigmacr = L.d_s / (4 * π * L.Gc2 * L.d_l * L.d_ls)

/-- The profile as a function of the radius. -/
theorem PJaffe.deflection_eq (L : PJaffe) (hL : L.Ok) (hs : L.s = 0) (x y : ℝ) :
    let R := √((x - L.x0) ^ 2 + (y - L.y0) ^ 2)
    let A := 2 * pjKappa0 L.mass L.Rc L.Rs L.d_l L.sigmacr * L.Rc * L.Rs / (L.Rs - L.Rc)
      * (R / (L.Rc + √(L.Rc ^ 2 + R ^ 2)) - R / (L.Rs + √(L.Rs ^ 2 + R ^ 2)))
    L.deflection x y = (A * (x - L.x0) / R, A * (y - L.y0) / R) := by
  simp only [PJaffe.deflection, translateRotate, hs, add_zero, (pj_shape hL.Rc).1,
    (pj_shape hL.Rs).2]

theorem C23_pseudo_jaffe (L : PJaffe) (hL : L.Ok) (hs : L.s = 0) (x y : ℝ)
    (hxy : (x, y) ≠ (L.x0, L.y0)) :
    HasGrad L.potential (L.deflection x y).1 (L.deflection x y).2 x y := by
  have h' := sub_ne_zero_or hxy
  have hR := radius_pos h'
  have hd := ((hasDerivAt_pj_log (R := √((x - L.x0) ^ 2 + (y - L.y0) ^ 2)) hL.Rs).sub
    (hasDerivAt_pj_log (R := √((x - L.x0) ^ 2 + (y - L.y0) ^ 2)) hL.Rc)).const_mul
    (-(8 * π * L.Gc2 * pjKappa0 L.mass L.Rc L.Rs L.d_l 1 * (L.d_l * L.d_ls / L.d_s)
      * L.Rc * L.Rs / (L.Rs - L.Rc)))
  have e : L.potential = fun x y => -(8 * π * L.Gc2 * pjKappa0 L.mass L.Rc L.Rs L.d_l 1
      * (L.d_l * L.d_ls / L.d_s) * L.Rc * L.Rs / (L.Rs - L.Rc))
      * (√(L.Rs ^ 2 + √((x - L.x0) ^ 2 + (y - L.y0) ^ 2) ^ 2) - L.Rs * log (L.Rs
          + √(L.Rs ^ 2 + √((x - L.x0) ^ 2 + (y - L.y0) ^ 2) ^ 2))
        - (√(L.Rc ^ 2 + √((x - L.x0) ^ 2 + (y - L.y0) ^ 2) ^ 2) - L.Rc * log (L.Rc
          + √(L.Rc ^ 2 + √((x - L.x0) ^ 2 + (y - L.y0) ^ 2) ^ 2)))) := by
    funext x y
    simp only [PJaffe.potential, translateRotate, hs, add_zero, radius_sq]
    ring
  have ha := arcsecToRad_pos
  have hdl := hL.d_l; have hds := hL.d_s; have hdls := hL.d_ls; have hG := hL.G
  have hRc := hL.Rc; have hRs := hL.Rs
  have hne : L.Rs - L.Rc ≠ 0 := sub_ne_zero.mpr hL.ne.symm
  have hpi := pi_pos
  rw [e, L.deflection_eq hL hs]
  refine (hasGrad_shift (hasGrad_radial h' hd)).congr ?_ ?_ <;>
  · simp only [pjKappa0, hL.sigmacr]
    generalize √((x - L.x0) ^ 2 + (y - L.y0) ^ 2) = R at *
    have h1 := sqrt_pos.mpr (show 0 < L.Rs ^ 2 + R ^ 2 by positivity)
    have h2 := sqrt_pos.mpr (show 0 < L.Rc ^ 2 + R ^ 2 by positivity)
    generalize √(L.Rs ^ 2 + R ^ 2) = ws at *
    generalize √(L.Rc ^ 2 + R ^ 2) = wc at *
    field_simp
    ring

theorem C24_pseudo_jaffe (L : PJaffe) (hL : L.Ok) (hs : L.s = 0) (x y : ℝ)
    (hxy : (x, y) ≠ (L.x0, L.y0)) : HasKappa L.deflection (L.convergence x y) x y := by
  have h' := sub_ne_zero_or hxy
  have hR := radius_pos h'
  have hRc := hL.Rc; have hRs := hL.Rs
  have hne : L.Rs - L.Rc ≠ 0 := sub_ne_zero.mpr hL.ne.symm
  have hd := ((hasDerivAt_pj_shape hL.Rc hR).sub (hasDerivAt_pj_shape hL.Rs hR)).const_mul
    (2 * pjKappa0 L.mass L.Rc L.Rs L.d_l L.sigmacr * L.Rc * L.Rs / (L.Rs - L.Rc))
  have e : L.deflection = fun x y => _ := funext fun x => funext fun y => L.deflection_eq hL hs x y
  rw [e]
  refine (hasKappa_shift (hasKappa_radial h' hd)).congr ?_
  simp only [PJaffe.convergence, translateRotate, hs, add_zero]
  have hsq := radius_sq (x - L.x0) (y - L.y0)
  obtain ⟨R, hRe⟩ : ∃ R, √((x - L.x0) ^ 2 + (y - L.y0) ^ 2) = R := ⟨_, rfl⟩
  simp only [hRe, Pi.sub_apply] at hR hsq ⊢
  rw [← hsq]
  have h1 := sqrt_pos.mpr (show 0 < L.Rs ^ 2 + R ^ 2 by positivity)
  have h2 := sqrt_pos.mpr (show 0 < L.Rc ^ 2 + R ^ 2 by positivity)
  generalize √(L.Rs ^ 2 + R ^ 2) = ws at *
  generalize √(L.Rc ^ 2 + R ^ 2) = wc at *
  field_simp
  ring

/-- The deflection at a radius is that of the mass the model reports inside it:
`α = M(R) / (π Σcr (d_l arcsec)² R)`. -/
theorem C54_pseudo_jaffe_mass (L : PJaffe) (hL : L.Ok) (hs : L.s = 0) (x y : ℝ)
    (hxy : (x, y) ≠ (L.x0, L.y0)) :
    let R := √((x - L.x0) ^ 2 + (y - L.y0) ^ 2)
    let A := pjMassEnclosed R L.mass L.Rc L.Rs 0
      / (π * L.sigmacr * (L.d_l * arcsecToRad) ^ 2 * R)
    L.deflection x y = (A * (x - L.x0) / R, A * (y - L.y0) / R) := by
  intro R A
  have h' := sub_ne_zero_or hxy
  have hR : 0 < R := radius_pos h'
  have ha := arcsecToRad_pos
  have hdl := hL.d_l; have hds := hL.d_s; have hdls := hL.d_ls; have hG := hL.G
  have hRc := hL.Rc; have hRs := hL.Rs
  have hne : L.Rs - L.Rc ≠ 0 := sub_ne_zero.mpr hL.ne.symm
  have hpi := pi_pos
  have hsg : 0 < L.sigmacr := by rw [hL.sigmacr]; positivity
  rw [L.deflection_eq hL hs]
  have key : ∀ a, 0 < a → R / (a + √(a ^ 2 + R ^ 2)) = (√(a ^ 2 + R ^ 2) - a) / R := by
    intro a ha
    have h1 := sqrt_pos.mpr (show 0 < a ^ 2 + R ^ 2 by positivity)
    have h2 : √(a ^ 2 + R ^ 2) ^ 2 = a ^ 2 + R ^ 2 := sq_sqrt (by positivity)
    generalize √(a ^ 2 + R ^ 2) = w at *
    field_simp
    linear_combination -h2
  have hA : 2 * pjKappa0 L.mass L.Rc L.Rs L.d_l L.sigmacr * L.Rc * L.Rs / (L.Rs - L.Rc)
      * (R / (L.Rc + √(L.Rc ^ 2 + R ^ 2)) - R / (L.Rs + √(L.Rs ^ 2 + R ^ 2))) = A := by
    rw [key _ hRc, key _ hRs]
    simp only [A, pjMassEnclosed, pjKappa0, add_zero]
    field_simp
    ring
  change (_ * _ / R, _ * _ / R) = _
  rw [hA]

end Caustics
