import Verif.Lemmas.Lens
import Verif.Props.Jacobian
import Verif.Props.FarField
import Mathlib.MeasureTheory.Integral.DivergenceTheorem
import Mathlib.MeasureTheory.Integral.IntervalIntegral.FundThmCalculus

/-!
C113: mass and shear around a circle, for any lens.  The convergence between two circles is the change
of the flux of the deflection through them; the mean tangential shear on a circle is the mean
convergence inside (the flux over the area) less the mean convergence on it.
-/

open Filter Topology Set Real MeasureTheory intervalIntegral

namespace Caustics

/-- The component of the deflection away from the centre, on the circle of radius `r` at angle `φ`. -/
noncomputable def radialPart (alpha : ℝ → ℝ → ℝ × ℝ) (x0 y0 r φ : ℝ) : ℝ :=
  cos φ * (alpha (x0 + r * cos φ) (y0 + r * sin φ)).1 + sin φ * (alpha (x0 + r * cos φ) (y0 + r * sin φ)).2

/-- The component along the circle. -/
noncomputable def tangentialPart (alpha : ℝ → ℝ → ℝ × ℝ) (x0 y0 r φ : ℝ) : ℝ :=
  cos φ * (alpha (x0 + r * cos φ) (y0 + r * sin φ)).2 - sin φ * (alpha (x0 + r * cos φ) (y0 + r * sin φ)).1

/-- Tangential shear of `(gamma1, gamma2)` at position angle `φ`. -/
noncomputable def tangentialShear (g : ℝ × ℝ) (φ : ℝ) : ℝ := -(g.1 * cos (2 * φ) + g.2 * sin (2 * φ))

/-- A function of position in polar coordinates. -/
theorem HasGrad.polar {u : ℝ → ℝ → ℝ} {gx gy x0 y0 r φ : ℝ} (h : HasGrad u gx gy (x0 + r * cos φ) (y0 + r * sin φ)) :
    HasGrad (fun r φ => u (x0 + r * cos φ) (y0 + r * sin φ)) (cos φ * gx + sin φ * gy) (r * (cos φ * gy - sin φ * gx)) r φ := by
  have hc := (HasGrad.snd r φ).comp (hasDerivAt_cos φ)
  have hs := (HasGrad.snd r φ).comp (hasDerivAt_sin φ)
  have hx := (HasGrad.const x0 r φ).add ((HasGrad.fst r φ).mul hc)
  have hy := (HasGrad.const y0 r φ).add ((HasGrad.fst r φ).mul hs)
  exact (HasGrad.subst h hx hy).congr (by simp only [smul_eq_mul]; ring) (by simp only [smul_eq_mul]; ring)

/-- Derivatives of the two components in polar coordinates. -/
theorem parts_grad {alpha : ℝ → ℝ → ℝ × ℝ} {a b c d x0 y0 r φ : ℝ}
    (h : HasJac alpha a b c d (x0 + r * cos φ) (y0 + r * sin φ)) :
    (∃ fy, HasGrad (fun r φ => r * radialPart alpha x0 y0 r φ)
      (radialPart alpha x0 y0 r φ + r * (cos φ * (cos φ * a + sin φ * b) + sin φ * (cos φ * c + sin φ * d))) fy r φ) ∧
    ∃ gx, HasGrad (tangentialPart alpha x0 y0) gx
      (-radialPart alpha x0 y0 r φ + r * (cos φ * (cos φ * d - sin φ * c) - sin φ * (cos φ * b - sin φ * a))) r φ := by
  have hc := (HasGrad.snd r φ).comp (hasDerivAt_cos φ)
  have hs := (HasGrad.snd r φ).comp (hasDerivAt_sin φ)
  have h1 := h.1.polar
  have h2 := h.2.polar
  constructor
  · refine ⟨_, ((HasGrad.fst r φ).mul ((hc.mul h1).add (hs.mul h2))).congr ?_ rfl⟩
    simp only [radialPart]; ring
  · refine ⟨_, ((hc.mul h2).sub (hs.mul h1)).congr rfl ?_⟩
    simp only [radialPart]; ring

theorem parts_periodic (alpha : ℝ → ℝ → ℝ × ℝ) (x0 y0 r : ℝ) :
    tangentialPart alpha x0 y0 r (2 * π) = tangentialPart alpha x0 y0 r 0 := by
  simp [tangentialPart]

/-- Gauss: the flux of the deflection grows outwards by twice the convergence between the circles.  The
circles may be anywhere, the lens may be of any shape. -/
theorem C113_gauss {alpha : ℝ → ℝ → ℝ × ℝ} {kappa : ℝ → ℝ → ℝ} {x0 y0 r1 r2 : ℝ} (h12 : r1 ≤ r2)
    (hk : ∀ r ∈ Icc r1 r2, ∀ φ, HasKappa alpha (kappa (x0 + r * cos φ) (y0 + r * sin φ)) (x0 + r * cos φ) (y0 + r * sin φ))
    (hc : ContinuousOn (fun p : ℝ × ℝ => kappa (x0 + p.1 * cos p.2) (y0 + p.1 * sin p.2)) (Icc r1 r2 ×ˢ Icc 0 (2 * π))) :
    ∫ r in r1..r2, ∫ φ in (0)..(2 * π), 2 * (kappa (x0 + r * cos φ) (y0 + r * sin φ) * r) =
      (∫ φ in (0)..(2 * π), r2 * radialPart alpha x0 y0 r2 φ) - ∫ φ in (0)..(2 * π), r1 * radialPart alpha x0 y0 r1 φ := by
  set f : ℝ × ℝ → ℝ := fun p => p.1 * radialPart alpha x0 y0 p.1 p.2 with hf
  set g : ℝ × ℝ → ℝ := fun p => tangentialPart alpha x0 y0 p.1 p.2 with hg
  have hpi : (0 : ℝ) ≤ 2 * π := by positivity
  have key : ∀ p : ℝ × ℝ, p.1 ∈ Icc r1 r2 → DifferentiableAt ℝ f p ∧ DifferentiableAt ℝ g p ∧
      fderiv ℝ f p (1, 0) + fderiv ℝ g p (0, 1) = 2 * (kappa (x0 + p.1 * cos p.2) (y0 + p.1 * sin p.2) * p.1) := by
    rintro ⟨r, φ⟩ hr
    obtain ⟨a, b, d, hJ, he⟩ := hk r hr φ
    obtain ⟨⟨fy, hF⟩, ⟨gx, hG⟩⟩ := parts_grad hJ
    have hF' : HasFDerivAt f _ (r, φ) := hF
    have hG' : HasFDerivAt g _ (r, φ) := hG
    refine ⟨hF'.differentiableAt, hG'.differentiableAt, ?_⟩
    rw [hF'.fderiv, hG'.fderiv]
    simp only [he, add_apply, ContinuousLinearMap.smulRight_apply, ContinuousLinearMap.coe_fst',
      ContinuousLinearMap.coe_snd', smul_eq_mul, one_mul, zero_mul, add_zero, zero_add]
    have h1 := cos_sq_add_sin_sq φ
    linear_combination r * (a + d) * h1
  have hmem : ∀ p ∈ uIcc r1 r2 ×ˢ uIcc (0 : ℝ) (2 * π), p.1 ∈ Icc r1 r2 := fun p hp => by
    rw [uIcc_of_le h12] at hp; exact hp.1
  have hmem' : ∀ p ∈ Ioo (min r1 r2) (max r1 r2) ×ˢ Ioo (min (0 : ℝ) (2 * π)) (max 0 (2 * π)), p.1 ∈ Icc r1 r2 := fun p hp => by
    rw [min_eq_left h12, max_eq_right h12] at hp; exact Ioo_subset_Icc_self hp.1
  have hdiv := integral2_divergence_prod_of_hasFDerivAt f g (fderiv ℝ f) (fderiv ℝ g) r1 0 r2 (2 * π)
    (fun p hp => (key p (hmem p hp)).1.continuousAt.continuousWithinAt)
    (fun p hp => (key p (hmem p hp)).2.1.continuousAt.continuousWithinAt)
    (fun p hp => (key p (hmem' p hp)).1.hasFDerivAt) (fun p hp => (key p (hmem' p hp)).2.1.hasFDerivAt)
    (by
      have hcont : ContinuousOn (fun p : ℝ × ℝ => 2 * (kappa (x0 + p.1 * cos p.2) (y0 + p.1 * sin p.2) * p.1))
          (uIcc r1 r2 ×ˢ uIcc 0 (2 * π)) := by
        rw [uIcc_of_le h12, uIcc_of_le hpi]
        exact continuousOn_const.mul (hc.mul continuousOn_fst)
      refine (hcont.integrableOn_compact (isCompact_uIcc.prod isCompact_uIcc)).congr_fun ?_
        (measurableSet_uIcc.prod measurableSet_uIcc)
      intro p hp
      exact (key p (hmem p hp)).2.2.symm)
  have hl : ∫ r in r1..r2, ∫ φ in (0)..(2 * π), 2 * (kappa (x0 + r * cos φ) (y0 + r * sin φ) * r) =
      ∫ r in r1..r2, ∫ φ in (0)..(2 * π), fderiv ℝ f (r, φ) (1, 0) + fderiv ℝ g (r, φ) (0, 1) := by
    refine integral_congr fun r hr => ?_
    rw [uIcc_of_le h12] at hr
    exact integral_congr fun φ _ => ((key (r, φ) hr).2.2).symm
  rw [hl, hdiv]
  simp only [hf, hg, parts_periodic, sub_self, zero_add]

/-- On any circle the mean tangential shear is the mean convergence inside (what the flux of the deflection
measures) less the mean convergence on the circle. -/
theorem C113_mean_shear {alpha : ℝ → ℝ → ℝ × ℝ} {J : ℝ → M22 ℝ} {x0 y0 r : ℝ}
    (hJ : ∀ φ, HasJac alpha (J φ).a00 (J φ).a01 (J φ).a10 (J φ).a11 (x0 + r * cos φ) (y0 + r * sin φ))
    (hsym : ∀ φ, (J φ).a01 = (J φ).a10)
    (h00 : Continuous fun φ => (J φ).a00) (h01 : Continuous fun φ => (J φ).a01) (h11 : Continuous fun φ => (J φ).a11) :
    r * ∫ φ in (0)..(2 * π), (effectiveDiv (J φ) + tangentialShear (shearFromJac (lensEqJac (J φ))) φ) =
      ∫ φ in (0)..(2 * π), radialPart alpha x0 y0 r φ := by
  have hd : ∀ φ, HasDerivAt (tangentialPart alpha x0 y0 r)
      (r * (effectiveDiv (J φ) + tangentialShear (shearFromJac (lensEqJac (J φ))) φ) - radialPart alpha x0 y0 r φ) φ := by
    intro φ
    obtain ⟨gx, hG⟩ := (parts_grad (hJ φ)).2
    refine hG.partials.2.congr_deriv ?_
    rw [(C38_shear (J φ)).2, ← hsym φ]
    simp only [effectiveDiv, tangentialShear, cos_two_mul, sin_two_mul]
    have h1 := cos_sq_add_sin_sq φ
    linear_combination (r * (J φ).a00) * h1
  have hρ : Continuous (radialPart alpha x0 y0 r) := by
    have hp : ∀ {u : ℝ → ℝ → ℝ} {gx gy : ℝ → ℝ}, (∀ φ, HasGrad u (gx φ) (gy φ) (x0 + r * cos φ) (y0 + r * sin φ)) →
        Continuous fun φ => u (x0 + r * cos φ) (y0 + r * sin φ) := fun h =>
      continuous_iff_continuousAt.2 fun φ => (h φ).polar.partials.2.continuousAt
    exact (continuous_cos.mul (hp fun φ => (hJ φ).1)).add (continuous_sin.mul (hp fun φ => (hJ φ).2))
  have hs : Continuous fun φ => effectiveDiv (J φ) + tangentialShear (shearFromJac (lensEqJac (J φ))) φ := by
    simp only [(C38_shear (J _)).2, effectiveDiv, tangentialShear]
    fun_prop
  have hm : IntervalIntegrable (fun φ => r * (effectiveDiv (J φ) + tangentialShear (shearFromJac (lensEqJac (J φ))) φ)) volume 0 (2 * π) :=
    (continuous_const.mul hs).intervalIntegrable _ _
  have h := integral_eq_sub_of_hasDerivAt (a := 0) (b := 2 * π) (fun φ _ => hd φ)
    (hm.sub (hρ.intervalIntegrable _ _))
  rw [parts_periodic, sub_self, integral_sub hm (hρ.intervalIntegrable _ _),
    intervalIntegral.integral_const_mul] at h
  linarith

/-- A deflection that is radial and constant on a circle has no cross shear there; its tangential shear is the
mean convergence inside less the convergence. -/
theorem C113_circular {alpha : ℝ → ℝ → ℝ × ℝ} {x0 y0 r A k φ : ℝ} (hr : 0 < r)
    (hα : ∀ φ, alpha (x0 + r * cos φ) (y0 + r * sin φ) = (A * cos φ, A * sin φ))
    (hk : HasKappa alpha k (x0 + r * cos φ) (y0 + r * sin φ)) {J : M22 ℝ}
    (hJ : HasJac alpha J.a00 J.a01 J.a10 J.a11 (x0 + r * cos φ) (y0 + r * sin φ)) :
    shearFromJac (lensEqJac J) = (-((A / r - k) * cos (2 * φ)), -((A / r - k) * sin (2 * φ))) := by
  obtain ⟨a, b, d, h, he⟩ := hk
  have e1 := hJ.1.unique h.1
  have e2 := hJ.2.unique h.2
  have g1 := h.1.polar.partials.2
  have g2 := h.2.polar.partials.2
  have f1 : (fun s => (alpha (x0 + r * cos s) (y0 + r * sin s)).1) = fun s => A * cos s := by
    funext s; rw [hα s]
  have f2 : (fun s => (alpha (x0 + r * cos s) (y0 + r * sin s)).2) = fun s => A * sin s := by
    funext s; rw [hα s]
  rw [f1] at g1
  rw [f2] at g2
  have u1 := g1.unique ((hasDerivAt_cos φ).const_mul A)
  have u2 := g2.unique ((hasDerivAt_sin φ).const_mul A)
  have hA : A = A / r * r := by field_simp
  rw [hA] at u1 u2
  generalize A / r = T at *
  have v1 : cos φ * b - sin φ * a = -(T * sin φ) := mul_left_cancel₀ hr.ne' (by linear_combination u1)
  have v2 : cos φ * d - sin φ * b = T * cos φ := mul_left_cancel₀ hr.ne' (by linear_combination u2)
  rw [(C38_shear J).2, e1.1, e1.2, e2.2, he]
  have h1 := cos_sq_add_sin_sq φ
  refine Prod.ext ?_ ?_
  · simp only [cos_two_mul]
    linear_combination ((d - a) / 2 + T - (a + d) / 2) * h1 - cos φ * v2 - sin φ * v1
  · simp only [sin_two_mul]
    linear_combination (-b) * h1 + cos φ * v1 - sin φ * v2

theorem ring_radius (x0 y0 : ℝ) {r : ℝ} (hr : 0 < r) (φ : ℝ) :
    √((x0 + r * cos φ - x0) ^ 2 + (y0 + r * sin φ - y0) ^ 2) = r := by
  rw [show (x0 + r * cos φ - x0) ^ 2 + (y0 + r * sin φ - y0) ^ 2 = r ^ 2 by
    linear_combination r ^ 2 * cos_sq_add_sin_sq φ, sqrt_sq hr.le]

theorem ring_ne (x0 y0 : ℝ) {r : ℝ} (hr : 0 < r) (φ : ℝ) : (x0 + r * cos φ, y0 + r * sin φ) ≠ (x0, y0) := by
  intro h
  have := ring_radius x0 y0 hr φ
  rw [Prod.mk.injEq] at h
  rw [h.1, h.2] at this
  simp at this
  exact hr.ne this

/-- Isothermal sphere: the shear is as large as the convergence. -/
theorem C113_sis (x0 y0 Rein r φ : ℝ) (hr : 0 < r) {J : M22 ℝ}
    (hJ : HasJac (sisDeflection x0 y0 Rein 0) J.a00 J.a01 J.a10 J.a11 (x0 + r * cos φ) (y0 + r * sin φ)) :
    shearFromJac (lensEqJac J) = (-(sisConvergence x0 y0 Rein 0 (x0 + r * cos φ) (y0 + r * sin φ) * cos (2 * φ)),
      -(sisConvergence x0 y0 Rein 0 (x0 + r * cos φ) (y0 + r * sin φ) * sin (2 * φ))) := by
  rw [C113_circular (A := Rein) hr (fun φ => ?_) (C24_sis x0 y0 Rein _ _ (ring_ne x0 y0 hr φ)) hJ]
  · have e : Rein / r - sisConvergence x0 y0 Rein 0 (x0 + r * cos φ) (y0 + r * sin φ) =
        sisConvergence x0 y0 Rein 0 (x0 + r * cos φ) (y0 + r * sin φ) := by
      simp only [sisConvergence, translateRotate, ring_radius x0 y0 hr φ]
      norm_num
      ring
    rw [e]
  · have h := ring_radius x0 y0 hr φ
    simp only [sisDeflection, translateRotate, h, add_zero]
    ext <;> simp only <;> field_simp <;> ring

/-- Point mass: shear without convergence. -/
theorem C113_point (x0 y0 Rein r φ : ℝ) (hr : 0 < r) {J : M22 ℝ}
    (hJ : HasJac (pointDeflection x0 y0 Rein 0) J.a00 J.a01 J.a10 J.a11 (x0 + r * cos φ) (y0 + r * sin φ)) :
    shearFromJac (lensEqJac J) = (-((Rein / r) ^ 2 * cos (2 * φ)), -((Rein / r) ^ 2 * sin (2 * φ))) := by
  obtain ⟨k, hk, hK⟩ := C24_point x0 y0 Rein _ _ (ring_ne x0 y0 hr φ)
  rw [(C24_point_centre x0 y0 _ _).2 (ring_ne x0 y0 hr φ)] at hk
  obtain rfl := Option.some.inj hk
  rw [C113_circular (A := Rein ^ 2 / r) hr (fun φ => ?_) hK hJ]
  · rw [show Rein ^ 2 / r / r - 0 = (Rein / r) ^ 2 by field_simp; ring]
  · have h := ring_radius x0 y0 hr φ
    simp only [pointDeflection, translateRotate, h, add_zero]
    ext <;> simp only <;> field_simp <;> ring

/-- The mean convergence of a mass inside the radius `r` (arcsec). -/
noncomputable def meanKappa (M sigmacr d_l r : ℝ) : ℝ := M / (π * sigmacr * (d_l * arcsecToRad * r) ^ 2)

theorem meanKappa_eq {Gc2 M d_ls d_l d_s sigmacr r : ℝ} (hG : 0 < Gc2) (hM : 0 ≤ M) (h1 : 0 < d_ls) (h2 : 0 < d_l)
    (h3 : 0 < d_s) (hr : 0 < r) (hs : sigmacr = d_s / (4 * π * Gc2 * d_l * d_ls)) :
    massToReinPoint Gc2 M d_ls d_l d_s ^ 2 / r / r = meanKappa M sigmacr d_l r := by
  have := radToArcsec_pos
  have := pi_pos
  rw [massToReinPoint_sq (by positivity), meanKappa, hs, arcsecToRad]
  field_simp

/-- Pseudo Jaffe: what `shear` measures is the mass that `mass_enclosed_2d` reports, less the convergence. -/
theorem C113_pseudo_jaffe (L : PJaffe) (hL : L.Ok) (hm : 0 ≤ L.mass) (hs : L.s = 0) (r φ : ℝ) (hr : 0 < r) {J : M22 ℝ}
    (hJ : HasJac L.deflection J.a00 J.a01 J.a10 J.a11 (L.x0 + r * cos φ) (L.y0 + r * sin φ)) :
    let T := meanKappa (pjMassEnclosed r L.mass L.Rc L.Rs 0) L.sigmacr L.d_l r -
      L.convergence (L.x0 + r * cos φ) (L.y0 + r * sin φ)
    shearFromJac (lensEqJac J) = (-(T * cos (2 * φ)), -(T * sin (2 * φ))) := by
  intro T
  rw [C113_circular hr (fun φ => ?_) (C24_pseudo_jaffe L hL hs _ _ (ring_ne L.x0 L.y0 hr φ)) hJ,
    meanKappa_eq hL.G (pjMassEnclosed_nonneg hm hL.Rc hL.Rs hL.ne hr.le) hL.d_ls hL.d_l hL.d_s hr hL.sigmacr]
  have h := ring_radius L.x0 L.y0 hr φ
  rw [C110_pseudo_jaffe L hL hm hs _ _ (ring_ne L.x0 L.y0 hr φ)]
  simp only [pointDeflection, translateRotate, h, add_zero]
  ext <;> simp only <;> field_simp <;> ring

/-- Truncated NFW, outside the window around the scale radius in which it is a series. -/
theorem C113_tnfw (L : TNFWLens) (hL : L.Ok) (hs : L.s = 0) (r φ : ℝ) (hr : 0 < r) (hw : 1e-2 < |r / L.Rs - 1|) {J : M22 ℝ}
    (hJ : HasJac L.toTNFW.deflection J.a00 J.a01 J.a10 J.a11 (L.x0 + r * cos φ) (L.y0 + r * sin φ)) :
    let T := meanKappa (L.massEnclosed r) L.sigmacr L.d_l r - L.toTNFW.convergence (L.x0 + r * cos φ) (L.y0 + r * sin φ)
    shearFromJac (lensEqJac J) = (-(T * cos (2 * φ)), -(T * sin (2 * φ))) := by
  intro T
  have hOk : L.toTNFW.Ok := ⟨hL.G, hL.Rs, hL.tau, hL.d_l, hL.d_s, hL.d_ls, hL.sigmacr⟩
  have hrad : L.toTNFW.radius (L.x0 + r * cos φ) (L.y0 + r * sin φ) = r / L.Rs := by
    rw [TNFW.radius]
    change √((L.x0 + r * cos φ - L.x0) ^ 2 + (L.y0 + r * sin φ - L.y0) ^ 2) / L.Rs = _
    rw [ring_radius L.x0 L.y0 hr φ]
  have hk := C24_tnfw L.toTNFW hOk hs (L.x0 + r * cos φ) (L.y0 + r * sin φ) (ring_ne L.x0 L.y0 hr φ) (by rw [hrad]; exact hw)
  rw [C113_circular hr (fun φ => ?_) hk hJ,
    meanKappa_eq hL.G (L.massEnclosed_nonneg hL hr) hL.d_ls hL.d_l hL.d_s hr hL.sigmacr]
  have h := ring_radius L.x0 L.y0 hr φ
  rw [C110_tnfw L hL hs _ _ (ring_ne L.x0 L.y0 hr φ)]
  simp only [pointDeflection, translateRotate, h, add_zero]
  ext <;> simp only <;> field_simp <;> ring

/-- An elliptical lens: the convergence of a SIE between two circles around its centre is the difference of the fluxes
of its deflection. -/
theorem C113_sie (x0 y0 q phi Rein s : ℝ) (hq : 0 < q) (hq1 : q < 1) (hs : 0 ≤ s) (r1 r2 : ℝ) (h1 : 0 < r1) (h12 : r1 ≤ r2) :
    ∫ r in r1..r2, ∫ φ in (0)..(2 * π), 2 * (sieConvergence x0 y0 q phi Rein s (x0 + r * cos φ) (y0 + r * sin φ) * r) =
      (∫ φ in (0)..(2 * π), r2 * radialPart (sieDeflection x0 y0 q phi Rein s) x0 y0 r2 φ) -
        ∫ φ in (0)..(2 * π), r1 * radialPart (sieDeflection x0 y0 q phi Rein s) x0 y0 r1 φ := by
  refine C113_gauss h12 (fun r hr φ => C24_sie x0 y0 q phi Rein s hq hq1 hs _ _ (Or.inr (ring_ne x0 y0 (h1.trans_le hr.1) φ))) ?_
  intro p hp
  have hr : 0 < p.1 := h1.trans_le hp.1.1
  have hne := ring_ne x0 y0 hr p.2
  have hpos := siePsi_pos (s := s) hq (Or.inr (frame_ne (phi := phi) hne))
  refine ContinuousAt.continuousWithinAt ?_
  unfold sieConvergence
  simp only [translateRotate] at hpos ⊢
  exact ContinuousAt.div (by fun_prop) (by fun_prop) hpos.ne'

/-- With a deflection bounded near the centre: the flux through a circle is twice the convergence inside. -/
theorem C113_disc {alpha : ℝ → ℝ → ℝ × ℝ} {kappa : ℝ → ℝ → ℝ} {x0 y0 R K : ℝ} (hR : 0 < R)
    (hk : ∀ r ∈ Ioc 0 R, ∀ φ, HasKappa alpha (kappa (x0 + r * cos φ) (y0 + r * sin φ)) (x0 + r * cos φ) (y0 + r * sin φ))
    (hc : ContinuousOn (fun p : ℝ × ℝ => kappa (x0 + p.1 * cos p.2) (y0 + p.1 * sin p.2)) (Ioc 0 R ×ˢ Icc 0 (2 * π)))
    (hK : ∀ r ∈ Ioc 0 R, ∀ φ, |radialPart alpha x0 y0 r φ| ≤ K) :
    Tendsto (fun r1 => ∫ r in r1..R, ∫ φ in (0)..(2 * π), 2 * (kappa (x0 + r * cos φ) (y0 + r * sin φ) * r)) (𝓝[>] 0)
      (𝓝 (∫ φ in (0)..(2 * π), R * radialPart alpha x0 y0 R φ)) := by
  have hz : Tendsto (fun r1 => ∫ φ in (0)..(2 * π), r1 * radialPart alpha x0 y0 r1 φ) (𝓝[>] 0) (𝓝 0) := by
    have hb : Tendsto (fun r1 : ℝ => r1 * (K * |2 * π - 0|)) (𝓝[>] 0) (𝓝 0) := by
      have : Tendsto (fun r1 : ℝ => r1 * (K * |2 * π - 0|)) (𝓝 0) (𝓝 (0 * (K * |2 * π - 0|))) :=
        tendsto_id.mul_const _
      rw [zero_mul] at this
      exact this.mono_left nhdsWithin_le_nhds
    refine squeeze_zero_norm' ?_ hb
    filter_upwards [Ioc_mem_nhdsGT hR] with r1 h1
    rw [intervalIntegral.integral_const_mul, norm_mul, Real.norm_of_nonneg h1.1.le]
    exact mul_le_mul_of_nonneg_left (norm_integral_le_of_norm_le_const fun φ _ => hK r1 h1 φ) h1.1.le
  have := (tendsto_const_nhds (x := ∫ φ in (0)..(2 * π), R * radialPart alpha x0 y0 R φ)).sub hz
  rw [sub_zero] at this
  refine this.congr' ?_
  filter_upwards [Ioc_mem_nhdsGT hR] with r1 h1
  refine (C113_gauss h1.2 (fun r hr => hk r ⟨h1.1.trans_le hr.1, hr.2⟩) (hc.mono ?_)).symm
  exact prod_mono (fun r hr => ⟨h1.1.trans_le hr.1, hr.2⟩) le_rfl

/-- Direction of the tangential shear of a mass: on the x axis `gamma1` is negative. -/
example {J : M22 ℝ} (hJ : HasJac (pointDeflection 0 0 3 0) J.a00 J.a01 J.a10 J.a11 (0 + 6 * cos 0) (0 + 6 * sin 0)) :
    shearFromJac (lensEqJac J) = (-(1 / 4), 0) := by
  rw [C113_point 0 0 3 6 0 (by norm_num) hJ]
  norm_num

example (J : M22 ℝ) := C113_pseudo_jaffe (J := J) pjEx pjEx_ok (by norm_num [pjEx]) rfl 3 (π / 4) (by norm_num)
example (J : M22 ℝ) := C113_tnfw (J := J) (tnfwEx true) (tnfwEx_ok true) rfl 3 (π / 4) (by norm_num) (by norm_num [tnfwEx])
example := C113_sie 1 2 (1 / 2) 1 1 0 (by norm_num) (by norm_num) le_rfl 1 2 (by norm_num) (by norm_num)

end Caustics
