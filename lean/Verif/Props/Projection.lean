import Verif.Lemmas.Projection
import Verif.Props.TNFWMass
import Verif.Model.Cosmology

/-!
C76: the convergence of a halo lens is its density, integrated along the line of sight, in units of the
critical surface density; and what follows for the truncated profile (C54).
-/

open Real Filter Topology MeasureTheory

namespace Caustics

theorem scale_los {f : ℝ → ℝ} {xi rs : ℝ} (hrs : 0 < rs) :
    ∫ z, f (√(xi ^ 2 + z ^ 2) / rs) = rs * ∫ z, f (losR (xi / rs) z) := by
  have h := Measure.integral_comp_div (fun u => f (losR (xi / rs) u)) rs
  rw [abs_of_pos hrs, smul_eq_mul] at h
  rw [← h]
  congr 1
  funext z
  congr 1
  rw [losR, div_pow, div_pow, ← add_div, sqrt_div (by positivity), sqrt_sq hrs.le]

/-- NFW.  `r` is the distance to the centre, `xi` the distance of the line of sight. -/
theorem C76_nfw (L : NFW) (hL : L.Ok) (hs : L.s = 0) (x y : ℝ) (hxy : (x, y) ≠ (L.x0, L.y0))
    (hw : 1e-6 < |L.radius x y - 1|) :
    let xi := L.d_l * √((x - L.x0) ^ 2 + (y - L.y0) ^ 2) * arcsecToRad
    let rho := fun r => nfwScaleDensity L.rhoc L.c L.Delta / ((r / L.rs) * (1 + r / L.rs) ^ 2)
    ∃ k, L.convergence x y = some k ∧ k * L.sigmacr = ∫ z, rho (√(xi ^ 2 + z ^ 2)) := by
  intro xi rho
  have hrs := L.rs_pos hL
  have hr := L.radius_pos hL hxy
  have h1 := ne_one_of_window (by norm_num) hw
  have hne := sq_ne_one hr h1
  have hne' : L.radius x y ^ 2 - 1 ≠ 0 := fun h => hne (by linarith)
  have hX : xi / L.rs = L.radius x y := rfl
  have hsc : L.sigmacr ≠ 0 := by
    rw [hL.sigmacr]
    have := hL.d_s; have := hL.G; have := hL.d_l; have := hL.d_ls; have := pi_pos
    positivity
  have hI : ∫ z, rho (√(xi ^ 2 + z ^ 2)) =
      nfwScaleDensity L.rhoc L.c L.Delta * (L.rs * (2 * ringG (L.radius x y))) := by
    rw [← integral_los_nfw hr, ← hX, ← scale_los (f := fun r => 1 / (r * (1 + r) ^ 2)) hrs,
      ← integral_const_mul]
    congr 1
    funext z
    simp only [rho, mul_one_div]
  have hconv : L.convergence x y = divOpt (2 * nfwConvergenceS L.sigmacr L.rhoc L.mass L.c L.Delta
      * nfwF (L.radius x y)) (L.radius x y ^ 2 - 1) := by
    simp only [NFW.convergence, NFW.radius, translateRotate, hs, add_zero]
  refine ⟨_, by rw [hconv, divOpt, if_neg hne'], ?_⟩
  rw [hI, nfwF_eq hr hw, ringG, if_neg h1, nfwConvergenceS]
  change 2 * (L.rs * nfwScaleDensity L.rhoc L.c L.Delta / L.sigmacr) * _ / _ * _ = _
  generalize nfwScaleDensity L.rhoc L.c L.Delta = D
  generalize ringF _ = F
  generalize L.radius x y = X at *
  field_simp

/-- The surface density of the truncated profile, off the ring where the code uses a polynomial, and
on the scale radius itself. -/
theorem TNFW.convergence_eq (L : TNFW) (hL : L.Ok) (hs : L.s = 0) (x y : ℝ)
    (hxy : (x, y) ≠ (L.x0, L.y0)) (hw : 1e-2 < |L.radius x y - 1| ∨ L.radius x y = 1) :
    L.convergence x y = L.M0 / (2 * π * (L.Rs * L.d_l * arcsecToRad) ^ 2) / L.sigmacr
      * tnfwK L.tau (L.radius x y) := by
  have hF : tnfwF (L.radius x y) = ringF (L.radius x y) := by
    rcases hw with hw | hw
    · exact tnfwF_eq hw
    · rw [hw]; norm_num [tnfwF, ringF]
  have hd : L.convergence x y = L.tau ^ 2 / (L.tau ^ 2 + 1) ^ 2 *
      ((if L.radius x y = 1 then (L.tau ^ 2 + 1) / 3
          else (L.tau ^ 2 + 1) * (1 - tnfwF (L.radius x y)) / (L.radius x y ^ 2 - 1))
        + 2 * tnfwF (L.radius x y) + -π / √(L.tau ^ 2 + L.radius x y ^ 2)
        + (L.tau ^ 2 - 1) * tnfwL (L.radius x y) L.tau / (L.tau * √(L.tau ^ 2 + L.radius x y ^ 2)))
      * (L.M0 / (2 * π * (L.Rs * L.d_l * arcsecToRad) ^ 2)) / L.sigmacr := by
    simp only [TNFW.convergence, TNFW.radius, translateRotate, hs, add_zero]
    congr!
  rw [hd, hF, tnfwK, ringG]
  split_ifs <;> ring

/-- Truncated NFW. -/
theorem C76_tnfw (L : TNFW) (hL : L.Ok) (hs : L.s = 0) (x y : ℝ) (hxy : (x, y) ≠ (L.x0, L.y0))
    (hw : 1e-2 < |L.radius x y - 1| ∨ L.radius x y = 1) :
    let xi := L.d_l * √((x - L.x0) ^ 2 + (y - L.y0) ^ 2) * arcsecToRad
    let rs := L.Rs * L.d_l * arcsecToRad
    let rho := fun r => L.M0 / (4 * π * rs ^ 3) / ((r / rs) * (1 + r / rs) ^ 2)
      * (L.tau ^ 2 / (L.tau ^ 2 + (r / rs) ^ 2))
    L.convergence x y * L.sigmacr = ∫ z, rho (√(xi ^ 2 + z ^ 2)) := by
  intro xi rs rho
  have ha := arcsecToRad_pos
  have hdl := hL.d_l
  have hRs := hL.Rs
  have hrs : 0 < rs := by positivity
  have hR := radius_pos (sub_ne_zero_or hxy)
  have hr : 0 < L.radius x y := div_pos hR hRs
  have hX : xi / rs = L.radius x y := by
    simp only [xi, rs, TNFW.radius]
    field_simp
  have hsc : L.sigmacr ≠ 0 := by
    rw [hL.sigmacr]
    have := hL.d_s; have := hL.G; have := hL.d_ls; have := pi_pos
    positivity
  have hI : ∫ z, rho (√(xi ^ 2 + z ^ 2)) =
      L.M0 / (4 * π * rs ^ 3) * (rs * (2 * tnfwK L.tau (L.radius x y))) := by
    rw [← integral_los_tnfw hr hL.tau, ← hX, ← scale_los
      (f := fun r => 1 / (r * (1 + r) ^ 2) * (L.tau ^ 2 / (L.tau ^ 2 + r ^ 2))) hrs, ← integral_const_mul]
    congr 1
    funext z
    simp only [rho]
    rw [← mul_assoc, mul_one_div]
  rw [hI, L.convergence_eq hL hs x y hxy hw]
  generalize tnfwK _ _ = K
  have hpi := pi_pos
  change L.M0 / (2 * π * rs ^ 2) / L.sigmacr * K * L.sigmacr = _
  field_simp
  ring

/-- Pseudo-Jaffe, with core radius `rc` and scale radius `rs`; the central density is the one for which
the total mass is `mass` (`C76_pseudo_jaffe_total`). -/
theorem C76_pseudo_jaffe (L : PJaffe) (hL : L.Ok) (hs : L.s = 0) (x y : ℝ) :
    let xi := L.d_l * √((x - L.x0) ^ 2 + (y - L.y0) ^ 2) * arcsecToRad
    let rc := L.Rc * L.d_l * arcsecToRad
    let rs := L.Rs * L.d_l * arcsecToRad
    let rho := fun r => L.mass * (rc + rs) / (2 * π ^ 2 * rc ^ 2 * rs ^ 2)
      / ((1 + (r / rc) ^ 2) * (1 + (r / rs) ^ 2))
    L.convergence x y * L.sigmacr = ∫ z, rho (√(xi ^ 2 + z ^ 2)) := by
  intro xi rc rs rho
  have ha := arcsecToRad_pos
  have hdl := hL.d_l
  have hRs := hL.Rs
  have hRc := hL.Rc
  have hrs : 0 < rs := by positivity
  have hrc : 0 < rc := by positivity
  have hpi := pi_pos
  have hsc : L.sigmacr ≠ 0 := by
    rw [hL.sigmacr]
    have := hL.d_s; have := hL.G; have := hL.d_ls
    positivity
  have hne : rc ≠ rs := by
    intro h
    refine hL.ne ?_
    have h' : L.Rc * (L.d_l * arcsecToRad) = L.Rs * (L.d_l * arcsecToRad) := by
      rw [← mul_assoc, ← mul_assoc]; exact h
    exact mul_right_cancel₀ (by positivity) h'
  have hI : ∫ z, rho (√(xi ^ 2 + z ^ 2)) = L.mass * (rc + rs) / (2 * π ^ 2) *
      (π / (rs ^ 2 - rc ^ 2) * (1 / √(rc ^ 2 + xi ^ 2) - 1 / √(rs ^ 2 + xi ^ 2))) := by
    rw [← integral_los_pj hrc hrs hne, ← integral_const_mul]
    congr 1
    funext z
    simp only [rho]
    change _ / ((1 + (losR xi z / rc) ^ 2) * (1 + (losR xi z / rs) ^ 2)) = _
    field_simp
  rw [hI]
  have hsq : ∀ a : ℝ, 0 < a → √((a * L.d_l * arcsecToRad) ^ 2 + xi ^ 2) =
      L.d_l * arcsecToRad * √(a ^ 2 + ((x - L.x0) ^ 2 + (y - L.y0) ^ 2)) := by
    intro a _
    rw [← sqrt_sq (x := L.d_l * arcsecToRad) (by positivity), ← sqrt_mul (by positivity)]
    congr 1
    simp only [xi]
    have := sq_sqrt (show 0 ≤ (x - L.x0) ^ 2 + (y - L.y0) ^ 2 by positivity)
    linear_combination L.d_l ^ 2 * arcsecToRad ^ 2 * this
  rw [hsq L.Rc hRc, hsq L.Rs hRs]
  simp only [PJaffe.convergence, pjKappa0, translateRotate, hs, add_zero]
  generalize hA : √(L.Rc ^ 2 + ((x - L.x0) ^ 2 + (y - L.y0) ^ 2)) = A
  generalize hB : √(L.Rs ^ 2 + ((x - L.x0) ^ 2 + (y - L.y0) ^ 2)) = B
  have hA0 : 0 < A := by rw [← hA]; positivity
  have hB0 : 0 < B := by rw [← hB]; positivity
  have hd : L.Rs - L.Rc ≠ 0 := sub_ne_zero.2 fun h => hL.ne h.symm
  have hd2 : rs ^ 2 - rc ^ 2 = (L.Rs - L.Rc) * (L.Rs + L.Rc) * (L.d_l * arcsecToRad) ^ 2 := by
    simp only [rs, rc]; ring
  rw [hd2, show rc + rs = (L.Rs + L.Rc) * (L.d_l * arcsecToRad) by simp only [rs, rc]; ring]
  have hsum : 0 < L.Rs + L.Rc := by positivity
  field_simp

/-- The isothermal sphere of velocity dispersion `v`, density `v² / (2 π G r²)`, imaged by the `SIS`
(unsoftened) with the Einstein radius the library computes from `v`. -/
theorem C76_sis (c : Cosmo) (hG : 0 < c.GOverC2) {ckms v zl zs x0 y0 x y : ℝ} (hc : 0 < ckms)
    (hl : 0 < c.angular zl) (hs : 0 < c.angular zs) (hls : 0 < c.angular12 zl zs)
    (hxy : (x, y) ≠ (x0, y0)) :
    let xi := c.angular zl * √((x - x0) ^ 2 + (y - y0) ^ 2) * arcsecToRad
    let rho := fun r => (v / ckms) ^ 2 / (2 * π * c.GOverC2 * r ^ 2)
    sisConvergence x0 y0 (sigmaVToRein ckms v (c.angular12 zl zs) (c.angular zs)) 0 x y
      * c.criticalSurfaceDensity zl zs = ∫ z, rho (√(xi ^ 2 + z ^ 2)) := by
  intro xi rho
  have ha := arcsecToRad_pos
  have hR := radius_pos (sub_ne_zero_or hxy)
  have hxi : 0 < xi := by positivity
  have hpi := pi_pos
  have hI : ∫ z, rho (√(xi ^ 2 + z ^ 2)) = (v / ckms) ^ 2 / (2 * π * c.GOverC2) * (π / xi) := by
    rw [← integral_los_iso hxi, ← integral_const_mul]
    congr 1
    funext z
    simp only [rho]
    rw [mul_one_div, div_div]
    rfl
  rw [hI]
  simp only [sisConvergence, translateRotate, add_zero, sigmaVToRein, Cosmo.criticalSurfaceDensity, xi,
    radToArcsec_eq]
  generalize √((x - x0) ^ 2 + (y - y0) ^ 2) = R at *
  norm_num
  field_simp

/-- The total mass of the pseudo-Jaffe density is the parameter `mass`. -/
theorem C76_pseudo_jaffe_total {m rc rs : ℝ} (hrc : 0 < rc) (hrs : 0 < rs) (hne : rc ≠ rs) :
    ∫ r in Set.Ioi (0 : ℝ), 4 * π * r ^ 2 * (m * (rc + rs) / (2 * π ^ 2 * rc ^ 2 * rs ^ 2)
      / ((1 + (r / rc) ^ 2) * (1 + (r / rs) ^ 2))) = m := by
  have hpi := pi_pos
  have hd : rs - rc ≠ 0 := sub_ne_zero.2 fun h => hne h.symm
  have hF : ∀ r : ℝ, HasDerivAt (fun r => rs * arctan (r / rs) - rc * arctan (r / rc))
      ((rs ^ 2 - rc ^ 2) * r ^ 2 / ((rc ^ 2 + r ^ 2) * (rs ^ 2 + r ^ 2))) r := by
    intro r
    refine ((((hasDerivAt_id r).div_const rs).arctan.const_mul rs).sub
      (((hasDerivAt_id r).div_const rc).arctan.const_mul rc)).congr_deriv ?_
    simp only [id]
    field_simp
    ring
  have hlim : Tendsto (fun r => rs * arctan (r / rs) - rc * arctan (r / rc)) atTop
      (𝓝 (rs * (π / 2) - rc * (π / 2))) := by
    refine Tendsto.sub (Tendsto.const_mul _ ?_) (Tendsto.const_mul _ ?_)
    · exact (tendsto_nhds_of_tendsto_nhdsWithin tendsto_arctan_atTop).comp (tendsto_id.atTop_div_const hrs)
    · exact (tendsto_nhds_of_tendsto_nhdsWithin tendsto_arctan_atTop).comp (tendsto_id.atTop_div_const hrc)
  have hI := integral_Ioi_of_hasDerivAt_of_nonneg' (a := 0)
    (g := fun r => (rs * arctan (r / rs) - rc * arctan (r / rc)) / (rs ^ 2 - rc ^ 2))
    (g' := fun r => r ^ 2 / ((rc ^ 2 + r ^ 2) * (rs ^ 2 + r ^ 2)))
    (l := (rs * (π / 2) - rc * (π / 2)) / (rs ^ 2 - rc ^ 2)) (fun r _ => by
      have h2 : rs ^ 2 - rc ^ 2 ≠ 0 := by
        rw [show rs ^ 2 - rc ^ 2 = (rs - rc) * (rs + rc) by ring]; positivity
      refine ((hF r).div_const _).congr_deriv ?_
      field_simp) (fun r _ => by positivity) (hlim.div_const _)
  have e : ∀ r : ℝ, 4 * π * r ^ 2 * (m * (rc + rs) / (2 * π ^ 2 * rc ^ 2 * rs ^ 2)
      / ((1 + (r / rc) ^ 2) * (1 + (r / rs) ^ 2))) =
      2 * m * (rc + rs) / π * (r ^ 2 / ((rc ^ 2 + r ^ 2) * (rs ^ 2 + r ^ 2))) := by
    intro r; field_simp; ring
  simp only [e]
  rw [integral_const_mul, hI]
  simp only [zero_div, arctan_zero, mul_zero, sub_zero]
  rw [show rs ^ 2 - rc ^ 2 = (rs - rc) * (rs + rc) by ring]
  field_simp
  ring

/-- The truncated NFW lens is admissible: the convergence is positive and decreases with the distance
from the centre (off the 1% ring around the scale radius where the code uses a polynomial). -/
theorem C54_tnfw (L : TNFWLens) (hL : L.Ok) (hs : L.s = 0) (x y x' y' : ℝ)
    (hxy : (x, y) ≠ (L.x0, L.y0))
    (hlt : (x - L.x0) ^ 2 + (y - L.y0) ^ 2 < (x' - L.x0) ^ 2 + (y' - L.y0) ^ 2)
    (hw : 1e-2 < |L.toTNFW.radius x y - 1| ∨ L.toTNFW.radius x y = 1)
    (hw' : 1e-2 < |L.toTNFW.radius x' y' - 1| ∨ L.toTNFW.radius x' y' = 1) :
    0 < L.toTNFW.convergence x' y' ∧ L.toTNFW.convergence x' y' < L.toTNFW.convergence x y := by
  have hM := C63_tnfw_pos L hL
  have hOk : L.toTNFW.Ok := ⟨hL.G, hL.Rs, hL.tau, hL.d_l, hL.d_s, hL.d_ls, hL.sigmacr⟩
  have hR := radius_pos (sub_ne_zero_or hxy)
  have hr : 0 < L.toTNFW.radius x y := div_pos hR hL.Rs
  have hrr : L.toTNFW.radius x y < L.toTNFW.radius x' y' :=
    div_lt_div_of_pos_right (sqrt_lt_sqrt (by positivity) hlt) hL.Rs
  have hxy' : (x', y') ≠ (L.x0, L.y0) := by
    intro h
    rw [Prod.mk.injEq] at h
    rw [h.1, h.2] at hlt
    have : 0 ≤ (x - L.x0) ^ 2 + (y - L.y0) ^ 2 := by positivity
    norm_num at hlt
    linarith
  rw [L.toTNFW.convergence_eq hOk hs x y hxy hw, L.toTNFW.convergence_eq hOk hs x' y' hxy' hw']
  have hA : 0 < L.M0 / (2 * π * (L.Rs * L.d_l * arcsecToRad) ^ 2) / L.sigmacr := by
    have := hL.G; have := hL.d_l; have := hL.d_s; have := hL.d_ls; have := pi_pos; have := hL.Rs
    have := arcsecToRad_pos
    rw [hL.sigmacr]
    positivity
  exact ⟨mul_pos hA (tnfwK_pos (hr.trans hrr) hL.tau),
    mul_lt_mul_of_pos_left (tnfwK_anti hr hrr hL.tau) hA⟩

-- a pseudo-Jaffe lens seen through its centre, a truncated NFW lens at twice and at exactly the scale
-- radius
noncomputable def pjSample : PJaffe :=
  { Gc2 := 1, x0 := 0, y0 := 0, mass := 3, Rc := 1, Rs := 2, d_l := 1, d_s := 1, d_ls := 1,
    sigmacr := 1 / (4 * π), s := 0 }

example : 0 < pjSample.convergence 0 0 * pjSample.sigmacr := by
  have hpi := pi_pos
  have ha := arcsecToRad_pos
  have h4 : √(4 : ℝ) = 2 := by rw [show (4 : ℝ) = 2 ^ 2 by norm_num]; exact sqrt_sq (by norm_num)
  simp only [pjSample, PJaffe.convergence, pjKappa0, translateRotate]
  norm_num [h4]
  positivity

example := C76_pseudo_jaffe pjSample ⟨one_pos, one_pos, two_pos, by norm_num [pjSample], one_pos, one_pos,
  one_pos, by norm_num [pjSample]⟩ rfl 0 0

noncomputable def tnfwSample : TNFW :=
  { Gc2 := 1, x0 := 0, y0 := 0, M0 := 5, Rs := 1, tau := 3, d_l := 1, d_s := 1, d_ls := 1,
    sigmacr := 1 / (4 * π), s := 0 }

theorem tnfwSample_ok : tnfwSample.Ok :=
  ⟨one_pos, one_pos, three_pos, one_pos, one_pos, one_pos, by norm_num [tnfwSample]⟩

example := C76_tnfw tnfwSample tnfwSample_ok rfl 2 0 (by norm_num [tnfwSample])
  (Or.inl (by
    simp only [tnfwSample, TNFW.radius]
    rw [show ((2 : ℝ) - 0) ^ 2 + (0 - 0) ^ 2 = 2 ^ 2 by norm_num, sqrt_sq (by norm_num)]
    norm_num))

example := C76_tnfw tnfwSample tnfwSample_ok rfl 1 0 (by norm_num [tnfwSample])
  (Or.inr (by norm_num [tnfwSample, TNFW.radius]))

end Caustics
