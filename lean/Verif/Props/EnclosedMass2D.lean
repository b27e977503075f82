import Verif.Lemmas.DiscIntegral
import Verif.Lemmas.Halo
import Verif.Spec.Region
import Verif.Props.EPL
import Verif.Props.SIE
import Verif.Props.LensHalo
import Verif.Props.Admissible
import Verif.Props.Projection
import Verif.Lemmas.TNFWMono
import Verif.Lemmas.TNFWTotal
import Mathlib.Analysis.SpecialFunctions.NonIntegrable
import Mathlib.MeasureTheory.Constructions.HaarToSphere
import Mathlib.LinearAlgebra.Complex.FiniteDimensional
import Mathlib.MeasureTheory.Measure.Lebesgue.Complex

/-!
C80: the convergence, added up over the sky, gives the mass the parameters promise.
-/

open Real MeasureTheory Set

namespace Caustics

theorem skyEllipse_eq {q : ℝ} (hq : 0 < q) (x0 y0 phi R : ℝ) :
    skyEllipse x0 y0 q phi R = {p : ℝ × ℝ | (q * cos phi * (p.1 - x0) + q * sin phi * (p.2 - y0)) ^ 2
      + (-sin phi * (p.1 - x0) + cos phi * (p.2 - y0)) ^ 2 ≤ (√q * R) ^ 2} := by
  ext p
  simp only [skyEllipse, mem_setOf_eq]
  rw [mul_pow √q, sq_sqrt hq.le, ← mul_le_mul_iff_of_pos_left hq]
  have : q * (q * ((p.1 - x0) * cos phi + (p.2 - y0) * sin phi) ^ 2
      + ((p.2 - y0) * cos phi - (p.1 - x0) * sin phi) ^ 2 / q) =
      (q * cos phi * (p.1 - x0) + q * sin phi * (p.2 - y0)) ^ 2
      + (-sin phi * (p.1 - x0) + cos phi * (p.2 - y0)) ^ 2 := by
    field_simp; ring
  rw [this]

theorem ellipse_det (q phi : ℝ) : q * cos phi * cos phi - q * sin phi * -sin phi = q := by
  linear_combination q * sin_sq_add_cos_sq phi

/-- The area of the ellipse is that of the disc of the same radius. -/
theorem skyEllipse_area {q R : ℝ} (hq : 0 < q) (hR : 0 < R) (x0 y0 phi : ℝ) :
    volume.real (skyEllipse x0 y0 q phi R) = π * R ^ 2 := by
  have hsq := sqrt_pos.2 hq
  have h := ellipse_integral (f := fun _ => 1) (M := fun r => r ^ 2 / 2) (R := √q * R)
    (a := q * cos phi) (b := q * sin phi) (c := -sin phi) (d := cos phi)
    (by rw [ellipse_det]; exact hq.ne') x0 y0 (by positivity) (by simp) (by fun_prop)
    (fun r _ => by
      refine (((hasDerivAt_id r).pow 2).div_const 2).congr_deriv ?_
      simp) (fun _ _ => zero_le_one)
  rw [← skyEllipse_eq hq, ellipse_det, abs_of_pos hq] at h
  simp only [integral_const, smul_eq_mul, mul_one, measureReal_restrict_apply_univ] at h
  rw [h, mul_pow, sq_sqrt hq.le]
  field_simp

/-- Elliptical power law of slope `t`: the convergence integrated over the ellipse of radius `R` is
`π R² (Rein / R)^t`.  In particular the mean convergence inside the ellipse of radius `Rein` is one:
`Rein` is the Einstein radius, whatever the axis ratio and the slope. -/
theorem C80_epl (x0 y0 q phi Rein t R : ℝ) (hq : 0 < q) (hRein : 0 < Rein) (ht : t < 2) (hR : 0 < R) :
    ∫ p in skyEllipse x0 y0 q phi R, eplConvergence x0 y0 q phi Rein t 0 p.1 p.2 =
      π * R ^ 2 * (Rein / R) ^ t := by
  have hsq := sqrt_pos.2 hq
  set b := Rein * √q with hb
  have hb0 : 0 < b := by positivity
  have h := ellipse_integral (f := fun r => (2 - t) / 2 * (b / r) ^ t)
    (M := fun r => b ^ t / 2 * r ^ (2 - t)) (R := √q * R)
    (a := q * cos phi) (b := q * sin phi) (c := -sin phi) (d := cos phi)
    (by rw [ellipse_det]; exact hq.ne') x0 y0 (by positivity)
    (by rw [zero_rpow (by linarith), mul_zero])
    (by
      refine ContinuousOn.mul continuousOn_const ?_
      exact ContinuousOn.rpow_const continuousOn_id fun _ _ => Or.inr (by linarith))
    (fun r hr => by
      have hr0 : 0 < r := hr.1
      refine ((hasDerivAt_rpow_const (x := r) (p := 2 - t) (Or.inl hr0.ne')).const_mul
        (b ^ t / 2)).congr_deriv ?_
      rw [div_rpow hb0.le hr0.le, show (2 - t - 1) = 1 - t by ring, rpow_sub hr0, rpow_one]
      field_simp)
    (fun r hr => by
      have hr0 : 0 < r := hr.1
      have : 0 < 2 - t := by linarith
      positivity)
  rw [← skyEllipse_eq hq, ellipse_det, abs_of_pos hq] at h
  have e : ∀ p : ℝ × ℝ, eplConvergence x0 y0 q phi Rein t 0 p.1 p.2 =
      (2 - t) / 2 * (b / √((q * cos phi * (p.1 - x0) + q * sin phi * (p.2 - y0)) ^ 2
        + (-sin phi * (p.1 - x0) + cos phi * (p.2 - y0)) ^ 2)) ^ t := by
    intro p
    simp only [eplConvergence, translateRotate]
    congr 4
    ring_nf
  simp only [e]
  rw [h, mul_rpow hsq.le hR.le, rpow_sub hsq, rpow_sub hR, hb, mul_rpow hRein.le hsq.le,
    div_rpow hRein.le hR.le, rpow_two, rpow_two, sq_sqrt hq.le]
  have h1 := rpow_pos_of_pos hsq t
  field_simp

/-- The mean convergence inside the Einstein ellipse is one. -/
theorem C80_epl_mean (x0 y0 q phi Rein t : ℝ) (hq : 0 < q) (hRein : 0 < Rein) (ht : t < 2) :
    (∫ p in skyEllipse x0 y0 q phi Rein, eplConvergence x0 y0 q phi Rein t 0 p.1 p.2) =
      volume.real (skyEllipse x0 y0 q phi Rein) := by
  rw [C80_epl x0 y0 q phi Rein t Rein hq hRein ht hRein, skyEllipse_area hq hRein, div_self hRein.ne',
    one_rpow, mul_one]

/-- Singular isothermal ellipsoid with core `s`: the convergence integrated over the ellipse of
radius `R`.  Without core this is `π Rein R`, so the mean inside `R = Rein` is one. -/
theorem C80_sie (x0 y0 q phi Rein s R : ℝ) (hq : 0 < q) (hRein : 0 ≤ Rein) (hs : 0 ≤ s) (hR : 0 < R) :
    ∫ p in skyEllipse x0 y0 q phi R, sieConvergence x0 y0 q phi Rein s p.1 p.2 =
      π * Rein * (√(R ^ 2 + q * s ^ 2) - √q * s) := by
  have hsq := sqrt_pos.2 hq
  have hqs : 0 ≤ q * s := by positivity
  have h := ellipse_integral (f := fun r => 0.5 * √q * Rein / √((q * s) ^ 2 + r ^ 2))
    (M := fun r => 0.5 * √q * Rein * (√((q * s) ^ 2 + r ^ 2) - q * s)) (R := √q * R)
    (a := q * cos phi) (b := q * sin phi) (c := -sin phi) (d := cos phi)
    (by rw [ellipse_det]; exact hq.ne') x0 y0 (by positivity)
    (by simp [sqrt_sq hqs]) (by fun_prop)
    (fun r hr => by
      have hr0 : 0 < r := hr.1
      have hp : 0 < (q * s) ^ 2 + r ^ 2 := by positivity
      have h1 : HasDerivAt (fun r : ℝ => (q * s) ^ 2 + r ^ 2) (2 * r) r := by
        refine (((hasDerivAt_id r).pow 2).const_add _).congr_deriv ?_
        simp
      refine (((h1.sqrt hp.ne').sub_const (q * s)).const_mul (0.5 * √q * Rein)).congr_deriv ?_
      have := sqrt_pos.2 hp
      field_simp)
    (fun r hr => by positivity)
  rw [← skyEllipse_eq hq, ellipse_det, abs_of_pos hq] at h
  have e : ∀ p : ℝ × ℝ, sieConvergence x0 y0 q phi Rein s p.1 p.2 =
      0.5 * √q * Rein / √((q * s) ^ 2 + √((q * cos phi * (p.1 - x0) + q * sin phi * (p.2 - y0)) ^ 2
        + (-sin phi * (p.1 - x0) + cos phi * (p.2 - y0)) ^ 2) ^ 2) := by
    intro p
    rw [sq_sqrt (by positivity)]
    simp only [sieConvergence, translateRotate]
    congr 2
    ring
  simp only [e]
  rw [h]
  have e2 : √((q * s) ^ 2 + (√q * R) ^ 2) = √q * √(R ^ 2 + q * s ^ 2) := by
    rw [← sqrt_mul hq.le, mul_pow √q, sq_sqrt hq.le]; congr 1; ring
  rw [e2]
  generalize √(R ^ 2 + q * s ^ 2) = w
  have hq2 := sq_sqrt hq.le
  generalize √q = u at *
  rw [← hq2]
  field_simp
  norm_num

theorem skyDisc_eq (x0 y0 R : ℝ) : skyDisc x0 y0 R = {p : ℝ × ℝ | (1 * (p.1 - x0) + 0 * (p.2 - y0)) ^ 2
    + (0 * (p.1 - x0) + 1 * (p.2 - y0)) ^ 2 ≤ R ^ 2} := by
  simp [skyDisc]

/-- The integral over a disc of the sky of a function of the distance from its centre. -/
theorem skyDisc_integral {f M : ℝ → ℝ} {R : ℝ} (x0 y0 : ℝ) (hR : 0 < R) (hM0 : M 0 = 0)
    (hc : ContinuousOn M (Icc 0 R)) (hd : ∀ r ∈ Ioo 0 R, HasDerivAt M (r * f r) r)
    (hf : ∀ r ∈ Ioo 0 R, 0 ≤ f r) :
    ∫ p in skyDisc x0 y0 R, f (√((p.1 - x0) ^ 2 + (p.2 - y0) ^ 2)) = 2 * π * M R := by
  have h := ellipse_integral (a := 1) (b := 0) (c := 0) (d := 1) (by norm_num) x0 y0 hR hM0 hc hd hf
  rw [← skyDisc_eq] at h
  simpa using h

/-- Singular isothermal sphere: the convergence integrated over the disc of radius `R` is
`π Rein R`; the mean inside the Einstein radius is one. -/
theorem C80_sis (x0 y0 Rein R : ℝ) (hRein : 0 ≤ Rein) (hR : 0 < R) :
    ∫ p in skyDisc x0 y0 R, sisConvergence x0 y0 Rein 0 p.1 p.2 = π * Rein * R := by
  have h := skyDisc_integral (f := fun r => 0.5 * Rein / r) (M := fun r => 0.5 * Rein * r) x0 y0 hR
    (by simp) (by fun_prop)
    (fun r hr => by
      have hr0 : 0 < r := hr.1
      refine ((hasDerivAt_id r).const_mul (0.5 * Rein)).congr_deriv ?_
      field_simp)
    (fun r hr => by
      have hr0 : 0 < r := hr.1
      positivity)
  simp only [sisConvergence, translateRotate, add_zero]
  rw [h]; ring

/-- Pseudo-Jaffe: `mass_enclosed_2d` is the surface density (convergence times critical surface
density) integrated over the disc, in physical area. -/
theorem C80_pseudo_jaffe (L : PJaffe) (hL : L.Ok) (hm : 0 ≤ L.mass) (hs : L.s = 0) (R : ℝ)
    (hR : 0 < R) :
    L.sigmacr * (L.d_l * arcsecToRad) ^ 2 * ∫ p in skyDisc L.x0 L.y0 R, L.convergence p.1 p.2 =
      pjMassEnclosed R L.mass L.Rc L.Rs 0 := by
  have ha := arcsecToRad_pos
  have hdl := hL.d_l; have hds := hL.d_s; have hdls := hL.d_ls; have hG := hL.G
  have hRc := hL.Rc; have hRs := hL.Rs
  have hne : L.Rs - L.Rc ≠ 0 := sub_ne_zero.mpr hL.ne.symm
  have hpi := pi_pos
  have hsg : 0 < L.sigmacr := by rw [hL.sigmacr]; positivity
  set K := pjKappa0 L.mass L.Rc L.Rs L.d_l L.sigmacr * L.Rc * L.Rs with hK
  have hK0 : 0 ≤ K := by rw [hK, pjKappa0]; positivity
  have h := skyDisc_integral
    (f := fun r => K / (L.Rs - L.Rc) * (1 / √(L.Rc ^ 2 + r ^ 2) - 1 / √(L.Rs ^ 2 + r ^ 2)))
    (M := fun r => K / (L.Rs - L.Rc) * (√(L.Rc ^ 2 + r ^ 2) - L.Rc - (√(L.Rs ^ 2 + r ^ 2) - L.Rs)))
    L.x0 L.y0 hR (by simp [sqrt_sq hRc.le, sqrt_sq hRs.le]) (by fun_prop)
    (fun r hr => by
      have h1 := hasDerivAt_sqrt_add_sq (a := L.Rc ^ 2) (x := r) (by positivity)
      have h2 := hasDerivAt_sqrt_add_sq (a := L.Rs ^ 2) (x := r) (by positivity)
      refine (((h1.sub_const L.Rc).sub (h2.sub_const L.Rs)).const_mul _).congr_deriv ?_
      ring)
    (fun r hr => by
      have h1 := sqrt_pos.2 (show 0 < L.Rc ^ 2 + r ^ 2 by positivity)
      have h2 := sqrt_pos.2 (show 0 < L.Rs ^ 2 + r ^ 2 by positivity)
      rcases lt_or_gt_of_ne hL.ne with h | h
      · have hlt : √(L.Rc ^ 2 + r ^ 2) ≤ √(L.Rs ^ 2 + r ^ 2) := sqrt_le_sqrt (by gcongr)
        have := one_div_le_one_div_of_le h1 hlt
        exact mul_nonneg (div_nonneg hK0 (by linarith)) (by linarith)
      · have hlt : √(L.Rs ^ 2 + r ^ 2) ≤ √(L.Rc ^ 2 + r ^ 2) := sqrt_le_sqrt (by gcongr)
        have := one_div_le_one_div_of_le h2 hlt
        exact mul_nonneg_of_nonpos_of_nonpos (div_nonpos_of_nonneg_of_nonpos hK0 (by linarith)) (by linarith))
  have e : ∀ p : ℝ × ℝ, L.convergence p.1 p.2 = K / (L.Rs - L.Rc) *
      (1 / √(L.Rc ^ 2 + √((p.1 - L.x0) ^ 2 + (p.2 - L.y0) ^ 2) ^ 2)
        - 1 / √(L.Rs ^ 2 + √((p.1 - L.x0) ^ 2 + (p.2 - L.y0) ^ 2) ^ 2)) := by
    intro p
    simp only [PJaffe.convergence, translateRotate, hs, add_zero, radius_sq]
    rw [hK]
  simp only [e]
  rw [h, hK, pjKappa0, pjMassEnclosed, add_zero]
  field_simp
  ring

/-- The same for a profile that is only known off the centre and a mass that tends to zero there. -/
theorem skyDisc_integral_off {F : ℝ × ℝ → ℝ} {f M : ℝ → ℝ} {R : ℝ} (x0 y0 : ℝ) (hR : 0 < R)
    (hF : ∀ p : ℝ × ℝ, p ≠ (x0, y0) → p ∈ skyDisc x0 y0 R → F p = f (√((p.1 - x0) ^ 2 + (p.2 - y0) ^ 2)))
    (hM0 : Filter.Tendsto M (nhdsWithin 0 (Ioi 0)) (nhds 0))
    (hd : ∀ r, 0 < r → r ≤ R → HasDerivAt M (r * f r) r) (hf : ∀ r ∈ Ioo 0 R, 0 ≤ f r) :
    ∫ p in skyDisc x0 y0 R, F p = 2 * π * M R := by
  have hm : MeasurableSet (skyDisc x0 y0 R) := measurableSet_le (by fun_prop) (by fun_prop)
  have h1 : ∫ p in skyDisc x0 y0 R, F p =
      ∫ p in skyDisc x0 y0 R, f (√((p.1 - x0) ^ 2 + (p.2 - y0) ^ 2)) := by
    refine setIntegral_congr_ae hm ?_
    have : ∀ᵐ p : ℝ × ℝ, p ≠ (x0, y0) := by
      rw [ae_iff]; simp
    filter_upwards [this] with p hp hpd
    exact hF p hp hpd
  rw [h1]
  have hev : ∀ r, 0 < r → Function.update M 0 0 =ᶠ[nhds r] M := fun r hr => by
    filter_upwards [isOpen_ne.mem_nhds hr.ne'] with x hx
    exact Function.update_of_ne hx _ _
  have := skyDisc_integral (f := f) (M := Function.update M 0 0) x0 y0 hR (by simp) ?_ ?_ hf
  · rw [this, Function.update_of_ne hR.ne']
  · intro r hr
    rcases eq_or_lt_of_le hr.1 with h | h
    · subst h
      unfold ContinuousWithinAt
      rw [Function.update_self, ← Ico_union_Icc_eq_Icc (le_refl (0 : ℝ)) hR.le, Ico_self, empty_union,
        ← Ioc_insert_left hR.le, nhdsWithin_insert]
      refine Filter.Tendsto.sup ?_ ?_
      · rw [Filter.tendsto_pure_left]
        intro s hs
        rw [Function.update_self]; exact mem_of_mem_nhds hs
      · refine ((hM0.mono_left (nhdsWithin_mono 0 Ioc_subset_Ioi_self))).congr' ?_
        filter_upwards [self_mem_nhdsWithin] with x hx
        exact (Function.update_of_ne (ne_of_gt hx.1) _ _).symm
    · exact ((hd r h hr.2).congr_of_eventuallyEq (hev r h)).continuousAt.continuousWithinAt
  · intro r hr
    exact (hd r hr.1 hr.2.le).congr_of_eventuallyEq (hev r hr.1)

/-- The full claim for the truncated NFW lens: `mass_enclosed_2d` is the integral of the surface
density over the disc. -/
def C80_tnfw_statement : Prop :=
  ∀ (L : TNFW), L.Ok → 0 ≤ L.M0 → L.s = 0 → ∀ R, 0 < R →
    L.sigmacr * (L.d_l * arcsecToRad) ^ 2 * ∫ p in skyDisc L.x0 L.y0 R, L.convergence p.1 p.2 =
      tnfwMassEnclosed R L.Rs L.tau L.M0

/-- It holds for discs that stay within the scale radius, up to the window of width 0.01 around it in
which the code replaces one of the functions by a short series. -/
theorem C80_tnfw_partial (L : TNFW) (hL : L.Ok) (hM : 0 ≤ L.M0) (hs : L.s = 0) (R : ℝ) (hR : 0 < R)
    (hw : R / L.Rs < 1 - 1e-2) :
    L.sigmacr * (L.d_l * arcsecToRad) ^ 2 * ∫ p in skyDisc L.x0 L.y0 R, L.convergence p.1 p.2 =
      tnfwMassEnclosed R L.Rs L.tau L.M0 := by
  have ha := arcsecToRad_pos
  have hdl := hL.d_l; have hds := hL.d_s; have hdls := hL.d_ls; have hG := hL.G
  have hRs := hL.Rs; have ht := hL.tau
  have hpi := pi_pos
  have hsg : 0 < L.sigmacr := by rw [hL.sigmacr]; positivity
  set C := L.M0 / (2 * π * (L.Rs * L.d_l * arcsecToRad) ^ 2) / L.sigmacr with hC
  have hC0 : 0 ≤ C := by rw [hC]; positivity
  have hwin : ∀ r, 0 < r → r ≤ R → 1e-2 < |r / L.Rs - 1| := by
    intro r h0 h1
    have : r / L.Rs ≤ R / L.Rs := by gcongr
    rw [abs_of_neg (by linarith [show (0 : ℝ) < 1e-2 by norm_num])]
    linarith
  have h := skyDisc_integral_off (F := fun p => L.convergence p.1 p.2)
    (f := fun r => C * tnfwK L.tau (r / L.Rs))
    (M := fun r => C * L.Rs ^ 2 * (L.tau ^ 2 / (L.tau ^ 2 + 1) ^ 2) * tnfwMb L.tau (r / L.Rs))
    L.x0 L.y0 hR ?_ ?_ ?_ ?_
  · rw [h, tnfwMassEnclosed_eq (Or.inl (hwin R hR le_rfl)), hC]
    field_simp
  · intro p hp hpd
    have h0 := radius_pos (sub_ne_zero_or (x := p.1) (y := p.2) hp)
    have h1 : √((p.1 - L.x0) ^ 2 + (p.2 - L.y0) ^ 2) ≤ R := sqrt_le_iff.2 ⟨hR.le, hpd⟩
    rw [L.convergence_eq hL hs p.1 p.2 hp (Or.inl (hwin _ h0 h1))]
    rfl
  · have hz := (tendsto_tnfwBracket_zero ht)
    have hd : Filter.Tendsto (fun r : ℝ => r / L.Rs) (nhdsWithin 0 (Ioi 0)) (nhdsWithin 0 (Ioi 0)) := by
      rw [tendsto_nhdsWithin_iff]
      refine ⟨?_, ?_⟩
      · have : Filter.Tendsto (fun r : ℝ => r / L.Rs) (nhds 0) (nhds (0 / L.Rs)) :=
          Filter.tendsto_id.div_const _
        rw [zero_div] at this
        exact tendsto_nhdsWithin_of_tendsto_nhds this
      · filter_upwards [self_mem_nhdsWithin] with r hr
        exact div_pos hr hRs
    have := (hz.comp hd).const_mul (C * L.Rs ^ 2 * (L.tau ^ 2 / (L.tau ^ 2 + 1) ^ 2))
    rw [mul_zero] at this
    exact this
  · intro r h0 h1
    have hg : 0 < r / L.Rs := by positivity
    have hk : HasDerivAt (fun r : ℝ => r / L.Rs) (1 / L.Rs) r := (hasDerivAt_id r).div_const L.Rs
    have hc := HasDerivAt.comp (h₂ := tnfwMb L.tau) (h := fun r : ℝ => r / L.Rs) _
      (hasDerivAt_tnfwMb ht hg (ne_one_of_window (by norm_num) (hwin r h0 h1))) hk
    refine (hc.const_mul (C * L.Rs ^ 2 * (L.tau ^ 2 / (L.tau ^ 2 + 1) ^ 2))).congr_deriv ?_
    field_simp
  · intro r hr
    have := tnfwK_pos (div_pos hr.1 hRs) ht
    positivity

theorem tendsto_nfwH_zero : Filter.Tendsto (fun x : ℝ => log (x / 2) + ringF x) (nhdsWithin 0 (Ioi 0))
    (nhds 0) := by
  have hg : Filter.Tendsto (fun g : ℝ => g) (nhdsWithin 0 (Ioi 0)) (nhds 0) :=
    tendsto_nhdsWithin_of_tendsto_nhds Filter.tendsto_id
  have hlg : Filter.Tendsto (fun g : ℝ => log g * g) (nhdsWithin 0 (Ioi 0)) (nhds 0) := by
    simpa only [rpow_one] using tendsto_log_mul_rpow_nhdsGT_zero zero_lt_one
  have hlg2 : Filter.Tendsto (fun g : ℝ => log g * g ^ 2) (nhdsWithin 0 (Ioi 0)) (nhds 0) := by
    have := hlg.mul hg
    rw [mul_zero] at this
    refine this.congr fun g => by ring
  have hc : Filter.Tendsto (fun g : ℝ => √(1 - g ^ 2)) (nhdsWithin 0 (Ioi 0)) (nhds 1) := by
    have := ((hg.pow 2).const_sub 1).sqrt
    simpa using this
  have hl1 : Filter.Tendsto (fun g : ℝ => log (1 + √(1 - g ^ 2))) (nhdsWithin 0 (Ioi 0))
      (nhds (log 2)) := by
    have := (hc.const_add 1).log (by norm_num)
    simpa [show (1:ℝ) + 1 = 2 by norm_num] using this
  have hlim : Filter.Tendsto (fun g : ℝ => log (1 + √(1 - g ^ 2)) / √(1 - g ^ 2) - log 2
      - log g * g ^ 2 * (1 / (√(1 - g ^ 2) * (1 + √(1 - g ^ 2))))) (nhdsWithin 0 (Ioi 0))
      (nhds (log 2 / 1 - log 2 - 0 * (1 / (1 * (1 + 1))))) :=
    ((hl1.div hc (by norm_num)).sub_const _).sub
      (hlg2.mul (tendsto_const_nhds.div (hc.mul (hc.const_add 1)) (by norm_num)))
  rw [show log 2 / 1 - log 2 - 0 * (1 / (1 * (1 + 1))) = 0 by ring] at hlim
  refine hlim.congr' ?_
  have hlt : ∀ᶠ g : ℝ in nhdsWithin 0 (Ioi 0), g < 1 := nhdsWithin_le_nhds (Iio_mem_nhds (by norm_num))
  filter_upwards [self_mem_nhdsWithin, hlt] with g hg0 hg1
  have hg0' : 0 < g := hg0
  obtain ⟨hcp, hc2⟩ := sqrt_one_sub_sq hg0' hg1
  have har : arcosh (1 / g) = log (1 + √(1 - g ^ 2)) - log g := by
    rw [arcosh, show √((1 / g) ^ 2 - 1) = √(1 - g ^ 2) / g by
      rw [show (1 / g) ^ 2 - 1 = (1 - g ^ 2) / g ^ 2 by field_simp, sqrt_div' _ (by positivity),
        sqrt_sq hg0'.le], ← add_div, log_div (by positivity) hg0'.ne']
  rw [ringF_lt hg1, har, log_div hg0'.ne' two_ne_zero]
  generalize √(1 - g ^ 2) = c at *
  generalize log (1 + c) = A
  generalize log g = G
  have k2 : g ^ 2 * (1 / (c * (1 + c))) = 1 / c - 1 := by
    field_simp
    linear_combination hc2
  rw [mul_assoc, k2]
  field_simp
  ring

/-- The full claim for the NFW lens: on every circle about the centre the deflection is that of the
convergence integrated over the disc it bounds. -/
def C80_nfw_statement : Prop :=
  ∀ (L : NFW), L.Ok → L.s = 0 → ∀ R, 0 < R →
    IntegrableOn (fun p : ℝ × ℝ => (L.convergence p.1 p.2).getD 0) (skyDisc L.x0 L.y0 R) ∧
    ∫ p in skyDisc L.x0 L.y0 R, (L.convergence p.1 p.2).getD 0 =
      π * R * (L.deflection (L.x0 + R) L.y0).1

/-- It holds within the scale radius, up to the window of relative width `1e-6` around it. -/
theorem C80_nfw_partial (L : NFW) (hL : L.Ok) (hs : L.s = 0) (R : ℝ) (hR : 0 < R)
    (hw : L.d_l * R * arcsecToRad / L.rs < 1 - 1e-6) :
    ∫ p in skyDisc L.x0 L.y0 R, (L.convergence p.1 p.2).getD 0 =
      π * R * (L.deflection (L.x0 + R) L.y0).1 := by
  have ha := arcsecToRad_pos
  have hdl := hL.d_l; have hds := hL.d_s; have hdls := hL.d_ls; have hG := hL.G
  have hrs := L.rs_pos hL
  have hpi := pi_pos
  have hks := L.kappaS_pos hL
  set K := nfwConvergenceS L.sigmacr L.rhoc L.mass L.c L.Delta with hK
  have hwin : ∀ r, 0 < r → r ≤ R → 1e-6 < |L.d_l * r * arcsecToRad / L.rs - 1| := by
    intro r h0 h1
    have : L.d_l * r * arcsecToRad / L.rs ≤ L.d_l * R * arcsecToRad / L.rs := by gcongr
    rw [abs_of_neg (by linarith [show (0 : ℝ) < 1e-6 by norm_num])]
    linarith
  have h := skyDisc_integral_off (F := fun p => (L.convergence p.1 p.2).getD 0)
    (f := fun r => 2 * K * ringK (L.d_l * r * arcsecToRad / L.rs))
    (M := fun r => 2 * K * (L.rs / (L.d_l * arcsecToRad)) ^ 2 *
      (log (L.d_l * r * arcsecToRad / L.rs / 2) + ringF (L.d_l * r * arcsecToRad / L.rs)))
    L.x0 L.y0 hR ?_ ?_ ?_ ?_
  · rw [h]
    have hH := nfwH_eq (hwin R hR le_rfl)
    simp only [NFW.deflection, NFW.physicalDeflection, translateRotate, hs, add_zero, add_sub_cancel_left,
      sub_self, ne_eq, OfNat.ofNat_ne_zero, not_false_eq_true, zero_pow, sqrt_sq hR.le, hH, hK,
      nfwConvergenceS, hL.sigmacr, radToArcsec_eq]
    change 2 * π * (2 * (L.rs * _ / _) * _ * _) = _
    generalize log _ + ringF _ = H
    generalize nfwScaleDensity _ _ _ = D
    field_simp
    ring
  · intro p hp hpd
    have h0 := radius_pos (sub_ne_zero_or (x := p.1) (y := p.2) hp)
    have h1 : √((p.1 - L.x0) ^ 2 + (p.2 - L.y0) ^ 2) ≤ R := sqrt_le_iff.2 ⟨hR.le, hpd⟩
    simp only [L.convergence_eq hL hs hp (hwin _ h0 h1)]
    rfl
  · have hd : Filter.Tendsto (fun r : ℝ => L.d_l * r * arcsecToRad / L.rs) (nhdsWithin 0 (Ioi 0))
        (nhdsWithin 0 (Ioi 0)) := by
      rw [tendsto_nhdsWithin_iff]
      refine ⟨?_, ?_⟩
      · have : ContinuousAt (fun r : ℝ => L.d_l * r * arcsecToRad / L.rs) 0 := by fun_prop
        have := this.tendsto
        simp only [mul_zero, zero_mul, zero_div] at this
        exact tendsto_nhdsWithin_of_tendsto_nhds this
      · filter_upwards [self_mem_nhdsWithin] with r hr
        have : (0 : ℝ) < r := hr
        exact Set.mem_Ioi.2 (by positivity)
    have := (tendsto_nfwH_zero.comp hd).const_mul (2 * K * (L.rs / (L.d_l * arcsecToRad)) ^ 2)
    rw [mul_zero] at this
    exact this
  · intro r h0 h1
    have hg : 0 < L.d_l * r * arcsecToRad / L.rs := by positivity
    have h1' := ne_one_of_window (by norm_num) (hwin r h0 h1)
    have hk : HasDerivAt (fun r : ℝ => L.d_l * r * arcsecToRad / L.rs) (L.d_l * arcsecToRad / L.rs) r := by
      refine ((((hasDerivAt_id _).const_mul L.d_l).mul_const
        arcsecToRad).div_const L.rs).congr_deriv (by ring)
    have hc := HasDerivAt.comp (h₂ := fun x => log (x / 2) + ringF x)
      (h := fun r : ℝ => L.d_l * r * arcsecToRad / L.rs) r
      ((hasDerivAt_log_half hg).add (hasDerivAt_ringF hg h1')) hk
    refine (hc.const_mul (2 * K * (L.rs / (L.d_l * arcsecToRad)) ^ 2)).congr_deriv ?_
    have hX : r = L.d_l * r * arcsecToRad / L.rs * (L.rs / (L.d_l * arcsecToRad)) := by field_simp
    rw [hX]
    rw [← hX]
    generalize hXd : L.d_l * r * arcsecToRad / L.rs = X at *
    have hne : X ^ 2 - 1 ≠ 0 := by
      intro h
      apply h1'
      have : (X - 1) * (X + 1) = 0 := by linear_combination h
      rcases mul_eq_zero.mp this with h | h <;> linarith
    rw [hX, ringK]
    field_simp
    ring
  · intro r hr
    have hg : 0 < L.d_l * r * arcsecToRad / L.rs := by have := hr.1; positivity
    have := ringK_pos hg (ne_one_of_window (by norm_num) (hwin r hr.1 hr.2.le))
    positivity

/-- Inside the window around the scale radius the numerator of the NFW convergence stays away from
zero. -/
theorem nfwF_frozen : ∃ m > 0, ∀ x : ℝ, x ≠ 1 → |x - 1| ≤ 1e-6 → m ≤ |nfwF x| := by
  have hf : 0 < 1 - ringF (1 + 1e-6) := by
    have := ringF_lt_one (x := 1 + 1e-6) (by norm_num); linarith
  have hg : 0 < ringF (1 - 1e-6) - 1 := by
    have := one_lt_ringF (x := 1 - 1e-6) (by norm_num) (by norm_num); linarith
  refine ⟨min _ _, lt_min hf hg, fun x hx hw => ?_⟩
  obtain ⟨h1, h2⟩ := abs_le.1 hw
  rcases lt_or_gt_of_ne hx with h | h
  · have hF : nfwF x = -(ringF (1 - 1e-6) - 1) := by
      unfold nfwF
      simp only
      rw [if_neg (not_lt.2 h.le), if_pos h, min_eq_right (by linarith), ringF_lt (by norm_num),
        two_artanh_eq (by norm_num) (by norm_num)]
      ring
    rw [hF, abs_neg, abs_of_pos hg]
    exact min_le_right _ _
  · have hF : nfwF x = 1 - ringF (1 + 1e-6) := by
      unfold nfwF
      simp only
      rw [if_pos h, max_eq_right (by linarith), ringF_gt (by norm_num), two_arctan_eq (by norm_num)]
    rw [hF, abs_of_pos hf]
    exact min_le_left _ _

/-- A function of the distance to `(x0, y0)` that is integrable over a disc is integrable along the
radius with weight `r`. -/
theorem skyDisc_integrable {f : ℝ → ℝ} {R : ℝ} (x0 y0 : ℝ) (hR : 0 < R)
    (h : IntegrableOn (fun p : ℝ × ℝ => f (√((p.1 - x0) ^ 2 + (p.2 - y0) ^ 2))) (skyDisc x0 y0 R)) :
    IntegrableOn (fun r => r * f r) (Ioo 0 R) := by
  have h1 : IntegrableOn (fun p : ℝ × ℝ => f (√(p.1 ^ 2 + p.2 ^ 2))) {p | p.1 ^ 2 + p.2 ^ 2 ≤ R ^ 2} := by
    have := (measurePreserving_add_right volume ((x0, y0) : ℝ × ℝ)).integrableOn_comp_preimage
      (MeasurableEquiv.addRight ((x0, y0) : ℝ × ℝ)).measurableEmbedding |>.2 h
    convert this using 1
    · funext p; simp
    · ext p; simp [skyDisc]
  have h2 := Complex.volume_preserving_equiv_real_prod.integrableOn_comp_preimage
      Complex.measurableEquivRealProd.measurableEmbedding |>.2 h1
  have h3 : IntegrableOn (fun z : ℂ => f ‖z‖) (Metric.ball (0 : ℂ) R) := by
    have e : (fun z : ℂ => f ‖z‖) = ((fun p : ℝ × ℝ => f (√(p.1 ^ 2 + p.2 ^ 2))) ∘
        Complex.measurableEquivRealProd) := by
      funext z
      simp [Complex.measurableEquivRealProd_apply, Complex.norm_eq_sqrt_sq_add_sq]
    rw [e]
    refine h2.mono_set fun z hz => ?_
    have hz' : ‖z‖ < R := by simpa using hz
    simp only [mem_preimage, mem_setOf_eq, Complex.measurableEquivRealProd_apply]
    rw [Complex.norm_eq_sqrt_sq_add_sq] at hz'
    exact (sqrt_lt' hR).1 hz' |>.le
  have h4 := integrableOn_fun_norm_addHaar (μ := (volume : Measure ℂ)) |>.1 h3
  simpa [Complex.finrank_real_complex] using h4

/-- **The NFW convergence has no mass.** On every disc that reaches beyond the scale radius the
computed convergence is not integrable: in a window around that radius the numerator is held fixed
while the denominator goes through zero. -/
theorem C80_fails_nfw_integrable (L : NFW) (hL : L.Ok) (hs : L.s = 0) (R : ℝ) (hR : 0 < R)
    (hr : 1 < L.d_l * R * arcsecToRad / L.rs) :
    ¬ IntegrableOn (fun p : ℝ × ℝ => (L.convergence p.1 p.2).getD 0) (skyDisc L.x0 L.y0 R) := by
  have ha := arcsecToRad_pos
  have hdl := hL.d_l
  have hrs := L.rs_pos hL
  have hks := L.kappaS_pos hL
  obtain ⟨m, hm, hmF⟩ := nfwF_frozen
  set K := nfwConvergenceS L.sigmacr L.rhoc L.mass L.c L.Delta with hK
  set k := L.d_l * arcsecToRad / L.rs with hk
  have hk0 : 0 < k := by rw [hk]; positivity
  intro hI
  have e : (fun p : ℝ × ℝ => (L.convergence p.1 p.2).getD 0) = fun p : ℝ × ℝ =>
      (fun r : ℝ => (divOpt (2 * K * nfwF (k * r)) ((k * r) ^ 2 - 1)).getD 0)
        (√((p.1 - L.x0) ^ 2 + (p.2 - L.y0) ^ 2)) := by
    funext p
    simp only [NFW.convergence, translateRotate, hs, add_zero, ← hK]
    rw [show L.d_l * √((p.1 - L.x0) ^ 2 + (p.2 - L.y0) ^ 2) * arcsecToRad / L.rs =
      k * √((p.1 - L.x0) ^ 2 + (p.2 - L.y0) ^ 2) by rw [hk]; ring]
  rw [e] at hI
  have h1 := skyDisc_integrable
    (f := fun r => (divOpt (2 * K * nfwF (k * r)) ((k * r) ^ 2 - 1)).getD 0) L.x0 L.y0 hR hI
  have hcR : 1 / k < R := by
    rw [div_lt_iff₀ hk0, hk]
    calc (1 : ℝ) < _ := hr
      _ = _ := by ring
  have hc0 : 0 < 1 / k := by positivity
  have h2 : IntervalIntegrable (fun r => r * (divOpt (2 * K * nfwF (k * r)) ((k * r) ^ 2 - 1)).getD 0)
      volume 0 R := by
    rw [intervalIntegrable_iff_integrableOn_Ioo_of_le hR.le]; exact h1
  refine not_intervalIntegrable_of_sub_inv_isBigO_punctured (c := 1 / k) ?_ hR.ne
    (by rw [uIcc_of_le hR.le]; exact ⟨hc0.le, hcR.le⟩) h2
  rw [Asymptotics.isBigO_iff]
  refine ⟨3 * k ^ 2 / (K * m), ?_⟩
  have hcont : Filter.Tendsto (fun r : ℝ => k * r - 1) (nhds (1 / k)) (nhds 0) := by
    have : ContinuousAt (fun r : ℝ => k * r - 1) (1 / k) := by fun_prop
    have := this.tendsto
    rwa [show k * (1 / k) - 1 = 0 by field_simp; ring] at this
  have hev := (hcont.eventually (Metric.closedBall_mem_nhds (0 : ℝ) (show (0 : ℝ) < 1e-6 by norm_num)))
  filter_upwards [nhdsWithin_le_nhds hev, self_mem_nhdsWithin] with r hr1 hr2
  have hw : |k * r - 1| ≤ 1e-6 := by simpa [Metric.mem_closedBall, dist_zero_right] using hr1
  have hne : k * r ≠ 1 := by
    intro h
    apply hr2
    simp only [mem_singleton_iff]
    field_simp
    linarith
  have hF := hmF _ hne hw
  obtain ⟨hw1, hw2⟩ := abs_le.1 hw
  have hp : 0 < k * r + 1 := by norm_num at hw1; linarith
  have hden : (k * r) ^ 2 - 1 = (k * r - 1) * (k * r + 1) := by ring
  have hden0 : (k * r) ^ 2 - 1 ≠ 0 := by
    rw [hden]; exact mul_ne_zero (sub_ne_zero.2 hne) hp.ne'
  have hr0 : 0 < r := by
    have : 0 < k * r := by norm_num at hw1; linarith
    exact (mul_pos_iff_of_pos_left hk0).1 this
  rw [divOpt, if_neg hden0, Option.getD_some, hden, norm_eq_abs, norm_eq_abs, abs_inv, abs_mul r, abs_div,
    abs_mul (2 * K), abs_mul (k * r - 1), abs_of_pos hr0, abs_of_pos hp, abs_of_pos (show (0 : ℝ) < 2 * K by positivity)]
  have hd : |r - 1 / k| = |k * r - 1| / k := by
    rw [show r - 1 / k = (k * r - 1) / k by field_simp, abs_div, abs_of_pos hk0]
  rw [hd]
  have ha0 : 0 < |k * r - 1| := abs_pos.2 (sub_ne_zero.2 hne)
  generalize |k * r - 1| = a at *
  generalize |nfwF (k * r)| = F at *
  rw [inv_div, div_le_iff₀ ha0]
  have : 3 * k ^ 2 / (K * m) * (r * (2 * K * F / (a * (k * r + 1)))) * a =
      k * (6 * (k * r) / (k * r + 1)) * (F / m) := by
    field_simp; ring
  rw [this]
  have h3 : 1 ≤ 6 * (k * r) / (k * r + 1) := by
    rw [le_div_iff₀ hp]; norm_num at hw1; linarith
  have h4 : 1 ≤ F / m := by rwa [le_div_iff₀ hm, one_mul]
  calc k = k * 1 * 1 := by ring
    _ ≤ _ := by gcongr

theorem unitNFW_scaled (x : ℝ) (hx : 0 ≤ x) :
    unitNFW.d_l * x * arcsecToRad / unitNFW.rs = x := by
  have := unitNFW_radius x hx
  simp only [NFW.radius] at this
  simpa [unitNFW, sqrt_sq hx] using this

/-- So the claim for the NFW lens is false: the disc of two scale radii. -/
theorem C80_fails_nfw : ¬ C80_nfw_statement := fun h =>
  C80_fails_nfw_integrable unitNFW unitNFW_ok rfl 2 two_pos
    (by rw [unitNFW_scaled 2 two_pos.le]; norm_num) (h unitNFW unitNFW_ok rfl 2 two_pos).1

/-- Half a scale radius. -/
example : ∫ p in skyDisc 0 0 (1 / 2), (unitNFW.convergence p.1 p.2).getD 0 =
    π * (1 / 2) * (unitNFW.deflection (0 + 1 / 2) 0).1 :=
  C80_nfw_partial unitNFW unitNFW_ok rfl (1 / 2) (by norm_num)
    (by rw [unitNFW_scaled _ (by norm_num)]; norm_num)

/-- Half a scale radius of a truncated halo. -/
example (L : TNFW) (hL : L.Ok) (hM : 0 ≤ L.M0) (hs : L.s = 0) (h2 : L.Rs = 2) :
    L.sigmacr * (L.d_l * arcsecToRad) ^ 2 * ∫ p in skyDisc L.x0 L.y0 1, L.convergence p.1 p.2 =
      tnfwMassEnclosed 1 2 L.tau L.M0 := by
  rw [C80_tnfw_partial L hL hM hs 1 one_pos (by rw [h2]; norm_num), h2]

/-- A flattened power law, over the ellipse of twice its Einstein radius. -/
example : ∫ p in skyEllipse 1 (-1) (1 / 2) 1 4, eplConvergence 1 (-1) (1 / 2) 1 2 1 0 p.1 p.2 = 8 * π := by
  rw [C80_epl 1 (-1) (1 / 2) 1 2 1 4 (by norm_num) (by norm_num) (by norm_num) (by norm_num), rpow_one]
  ring

/-- A cored ellipsoid, and a sphere. -/
example : ∫ p in skyEllipse 0 0 1 0 4, sieConvergence 0 0 1 0 2 3 p.1 p.2 = 4 * π := by
  rw [C80_sie 0 0 1 0 2 3 4 (by norm_num) (by norm_num) (by norm_num) (by norm_num), sqrt_one,
    show (4 : ℝ) ^ 2 + 1 * 3 ^ 2 = 5 ^ 2 by norm_num, sqrt_sq (by norm_num)]
  ring

example : ∫ p in skyDisc 1 2 3, sisConvergence 1 2 5 0 p.1 p.2 = 15 * π := by
  rw [C80_sis 1 2 5 3 (by norm_num) (by norm_num)]; ring

end Caustics
