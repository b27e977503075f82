import Verif.Props.ParityAE
import Verif.Props.FieldOfView
import Verif.Lemmas.RadialSmooth
import Verif.Lemmas.SieCone

/-!
C143, continued: lenses of the package that the theorem speaks about.
-/

namespace Caustics

open ComplexConjugate FieldLens Filter Topology PlaneMember MeasureTheory Real

/-- A pair of functions as one complex function. -/
noncomputable def toC (d : ℝ → ℝ → ℝ × ℝ) (w : ℂ) : ℂ := ⟨(d w.re w.im).1, (d w.re w.im).2⟩

theorem toC_eq (d : ℝ → ℝ → ℝ × ℝ) :
    toC d = Complex.equivRealProdCLM.symm ∘ (fun p : ℝ × ℝ => d p.1 p.2) ∘ Complex.equivRealProdCLM := rfl

theorem tame_of {L : ThinLensO ℝ} {d : ℝ → ℝ → ℝ × ℝ} {kinks : Finset (ℝ × ℝ)} {c : ℝ × ℝ} {B : ℝ}
    (hv : ∀ p : ℝ × ℝ, p ∉ kinks → L.reduced p.1 p.2 = some (d p.1 p.2)) (hc : Continuous fun p : ℝ × ℝ => d p.1 p.2)
    (hs : ∀ p : ℝ × ℝ, p ∉ kinks → ContDiffAt ℝ 1 (fun p : ℝ × ℝ => d p.1 p.2) p) (hb : Reach d c 0 B 0) :
    Tame L (toC d) kinks where
  value := fun p hp => hv p hp
  cont := by
    rw [toC_eq]
    exact Complex.equivRealProdCLM.symm.continuous.comp (hc.comp Complex.equivRealProdCLM.continuous)
  smooth := fun p hp => by
    rw [toC_eq]
    refine Complex.equivRealProdCLM.symm.contDiff.contDiffAt.comp (⟨p.1, p.2⟩ : ℂ) ?_
    exact ContDiffAt.comp (⟨p.1, p.2⟩ : ℂ) (hs p hp) Complex.equivRealProdCLM.contDiff.contDiffAt
  growth := fun ε hε => by
    refine ⟨B, fun w => ?_⟩
    have h1 := hb (w.re, w.im) (Real.sqrt_nonneg _)
    rw [zero_mul, add_zero] at h1
    have h2 : ‖toC d w‖ = len2 (d w.re w.im) := by
      rw [toC, len2, ← Real.sqrt_sq (norm_nonneg _), ← Complex.normSq_eq_norm_sq, Complex.normSq_apply, sq, sq]
    rw [h2]
    have := mul_nonneg hε.le (norm_nonneg w)
    linarith

/-- `SIS` and `Point` with softening and `SIE` with a core, as members of a plane; they are smooth everywhere. -/
noncomputable def softSis (z x0 y0 Rein s : ℝ) : PlaneMember :=
  .other ⟨z, sisDeflectionOpt x0 y0 Rein s, fun x y => some (sisPotential x0 y0 Rein s x y)⟩
    (toC (sisDeflection x0 y0 Rein s)) ∅

noncomputable def softPoint (z x0 y0 Rein s : ℝ) : PlaneMember :=
  .other ⟨z, pointDeflectionOpt x0 y0 Rein s, fun x y => some (pointPotential x0 y0 Rein s x y)⟩
    (toC (pointDeflection x0 y0 Rein s)) ∅

noncomputable def coredSie (z x0 y0 q phi Rein s : ℝ) : PlaneMember :=
  .other ⟨z, sieDeflectionOpt x0 y0 q phi Rein s, fun x y => some (siePotential x0 y0 q phi Rein s x y)⟩
    (toC (sieDeflection x0 y0 q phi Rein s)) ∅

theorem radial_pairs {d : ℝ → ℝ → ℝ × ℝ} {φ : ℝ → ℝ} {x0 y0 : ℝ} (hφ : ∀ r, 0 ≤ r → ContDiffAt ℝ 1 φ r)
    (hd : ∀ x y, d x y = (φ (√((x - x0) ^ 2 + (y - y0) ^ 2)) * (x - x0), φ (√((x - x0) ^ 2 + (y - y0) ^ 2)) * (y - y0))) :
    ContDiff ℝ 1 fun p : ℝ × ℝ => d p.1 p.2 := by
  have h1 : ContDiff ℝ 1 fun p : ℝ × ℝ => (⟨p.1, p.2⟩ : ℂ) - ⟨x0, y0⟩ :=
    Complex.equivRealProdCLM.symm.contDiff.sub contDiff_const
  have h2 := Complex.equivRealProdCLM.contDiff.comp ((radial_contDiff hφ).comp h1)
  have e : (fun p : ℝ × ℝ => d p.1 p.2) = Complex.equivRealProdCLM ∘ (fun w : ℂ => φ ‖w‖ • w) ∘
      fun p : ℝ × ℝ => (⟨p.1, p.2⟩ : ℂ) - ⟨x0, y0⟩ := by
    funext p
    have hn : ‖(⟨p.1, p.2⟩ : ℂ) - ⟨x0, y0⟩‖ = √((p.1 - x0) ^ 2 + (p.2 - y0) ^ 2) := by
      rw [← Real.sqrt_sq (norm_nonneg _), ← Complex.normSq_eq_norm_sq, Complex.normSq_apply, Complex.sub_re,
        Complex.sub_im, sq, sq]
    simp only [Function.comp_apply, hd, hn]
    ext <;> simp
  rw [e]
  exact h2

theorem sis_contDiff (x0 y0 Rein s : ℝ) (hs : 0 < s) :
    ContDiff ℝ 1 fun p : ℝ × ℝ => sisDeflection x0 y0 Rein s p.1 p.2 := by
  refine radial_pairs (φ := fun r => Rein / (r + s)) (x0 := x0) (y0 := y0) (fun r hr => ?_) fun x y => ?_
  · exact contDiffAt_const.div (contDiffAt_id.add contDiffAt_const) (by positivity)
  · simp only [sisDeflection, translateRotate]
    ext <;> simp only <;> ring

theorem C143_soft_sis (z x0 y0 Rein s : ℝ) (hR : 0 ≤ Rein) (hs : 0 < s) : (softSis z x0 y0 Rein s).Valid := by
  have hpos : ∀ p : ℝ × ℝ, √((p.1 - x0) ^ 2 + (p.2 - y0) ^ 2) + s ≠ 0 := fun p =>
    (add_pos_of_nonneg_of_pos (sqrt_nonneg _) hs).ne'
  exact tame_of (c := (x0, y0)) (B := Rein) (fun p _ => sisDeflectionOpt_eq (hpos p)) (sis_contDiff x0 y0 Rein s hs).continuous
    (fun p _ => (sis_contDiff x0 y0 Rein s hs).contDiffAt) (C128_sis x0 y0 Rein s hR hs.le)

theorem point_reach (x0 y0 Rein s : ℝ) (hs : 0 < s) :
    Reach (pointDeflection x0 y0 Rein s) (x0, y0) 0 (Rein ^ 2 / s) 0 := by
  intro p _
  rw [zero_mul, add_zero]
  simp only [pointDeflection, translateRotate, len2]
  set r := √((p.1 - x0) ^ 2 + (p.2 - y0) ^ 2) with hr
  have hr0 : 0 ≤ r := sqrt_nonneg _
  have hrr : r ^ 2 = (p.1 - x0) ^ 2 + (p.2 - y0) ^ 2 := sq_sqrt (by positivity)
  have e : ((p.1 - x0) * Rein ^ 2 / (r + s) ^ 2) ^ 2 + ((p.2 - y0) * Rein ^ 2 / (r + s) ^ 2) ^ 2 =
      (r * Rein ^ 2 / (r + s) ^ 2) ^ 2 := by
    rw [div_pow, div_pow, div_pow, mul_pow, mul_pow, mul_pow, hrr]
    ring
  rw [e, sqrt_sq (by positivity), div_le_div_iff₀ (by positivity) hs]
  have : r * s ≤ (r + s) ^ 2 := by nlinarith
  nlinarith [sq_nonneg Rein]

theorem point_contDiff (x0 y0 Rein s : ℝ) (hs : 0 < s) :
    ContDiff ℝ 1 fun p : ℝ × ℝ => pointDeflection x0 y0 Rein s p.1 p.2 := by
  refine radial_pairs (φ := fun r => Rein ^ 2 / (r + s) ^ 2) (x0 := x0) (y0 := y0) (fun r hr => ?_) fun x y => ?_
  · exact contDiffAt_const.div ((contDiffAt_id.add contDiffAt_const).pow 2) (by positivity)
  · simp only [pointDeflection, translateRotate]
    ext <;> simp only <;> ring

theorem C143_soft_point (z x0 y0 Rein s : ℝ) (hs : 0 < s) : (softPoint z x0 y0 Rein s).Valid := by
  have hpos : ∀ p : ℝ × ℝ, √((p.1 - x0) ^ 2 + (p.2 - y0) ^ 2) + s ≠ 0 := fun p =>
    (add_pos_of_nonneg_of_pos (sqrt_nonneg _) hs).ne'
  exact tame_of (c := (x0, y0)) (B := Rein ^ 2 / s) (fun p _ => pointDeflectionOpt_eq (hpos p))
    (point_contDiff x0 y0 Rein s hs).continuous (fun p _ => (point_contDiff x0 y0 Rein s hs).contDiffAt)
    (point_reach x0 y0 Rein s hs)

theorem contDiffAt_artanh {x : ℝ} (h1 : -1 < x) (h2 : x < 1) : ContDiffAt ℝ 1 artanh x := by
  have e : artanh =ᶠ[𝓝 x] fun x => 1 / 2 * log ((1 + x) / (1 - x)) := by
    filter_upwards [lt_mem_nhds h1, gt_mem_nhds h2] with y k1 k2
    exact artanh_eq_half_log ⟨k1.le, k2.le⟩
  refine ContDiffAt.congr_of_eventuallyEq ?_ e
  refine contDiffAt_const.mul (ContDiffAt.log ?_ ?_)
  · exact (contDiffAt_const.add contDiffAt_id).div (contDiffAt_const.sub contDiffAt_id) (sub_ne_zero.2 h2.ne')
  · exact div_ne_zero (by linarith) (sub_ne_zero.2 h2.ne')

theorem sie_contDiff (x0 y0 q phi Rein s : ℝ) (hq : 0 < q) (hq1 : q < 1) (hs : 0 < s) :
    ContDiff ℝ 1 fun p : ℝ × ℝ => sieDeflection x0 y0 q phi Rein s p.1 p.2 := by
  have hqq : sieQ q = q := by simp [sieQ, hq1.ne]
  have hf2 : 0 < 1 - q ^ 2 := by nlinarith
  have hf := sqrt_pos.2 hf2
  have hfq : √(1 - q ^ 2) ^ 2 = 1 - q ^ 2 := sq_sqrt hf2.le
  rw [contDiff_iff_contDiffAt]
  intro p
  simp only [sieDeflection, hqq]
  set u : ℝ × ℝ → ℝ := fun p => (translateRotate p.1 p.2 x0 y0 (some phi)).1 with hu
  set v : ℝ × ℝ → ℝ := fun p => (translateRotate p.1 p.2 x0 y0 (some phi)).2 with hv
  have hu1 : ContDiffAt ℝ 1 u p := by
    simp only [hu, translateRotate]
    fun_prop
  have hv1 : ContDiffAt ℝ 1 v p := by
    simp only [hv, translateRotate]
    fun_prop
  set psi : ℝ × ℝ → ℝ := fun p => √(q ^ 2 * (u p ^ 2 + s ^ 2) + v p ^ 2) with hpsi
  have hp0 : 0 < q ^ 2 * (u p ^ 2 + s ^ 2) + v p ^ 2 := by positivity
  have hpsi1 : ContDiffAt ℝ 1 psi p := by
    refine ContDiffAt.sqrt ?_ hp0.ne'
    exact (contDiffAt_const.mul ((hu1.pow 2).add contDiffAt_const)).add (hv1.pow 2)
  have hpp : 0 < psi p := sqrt_pos.2 hp0
  have hA : ContDiffAt ℝ 1 (fun p => Rein * √q / √(1 - q ^ 2) * arctan (√(1 - q ^ 2) * u p / (psi p + s))) p := by
    refine contDiffAt_const.mul (ContDiffAt.comp (g := arctan) p contDiff_arctan.contDiffAt ?_)
    exact (contDiffAt_const.mul hu1).div (hpsi1.add contDiffAt_const) (by positivity)
  have hlt : |√(1 - q ^ 2) * v p / (psi p + q ^ 2 * s)| < 1 := by
    rw [abs_div, abs_of_pos (by positivity : 0 < psi p + q ^ 2 * s), div_lt_one (by positivity), abs_mul,
      abs_of_pos hf]
    have h1 : √(1 - q ^ 2) < 1 := by
      rw [sqrt_lt' one_pos]
      nlinarith
    have h2 : |v p| ≤ psi p := by
      rw [← sqrt_sq_eq_abs]
      exact sqrt_le_sqrt (by nlinarith [mul_nonneg (sq_nonneg q) (add_nonneg (sq_nonneg (u p)) (sq_nonneg s))])
    have h3 : √(1 - q ^ 2) * |v p| ≤ |v p| := mul_le_of_le_one_left (abs_nonneg _) h1.le
    have h4 : 0 < q ^ 2 * s := by positivity
    linarith
  have hB : ContDiffAt ℝ 1 (fun p => Rein * √q / √(1 - q ^ 2) *
      artanh (√(1 - q ^ 2) * v p / (psi p + q ^ 2 * s))) p := by
    refine contDiffAt_const.mul (ContDiffAt.comp (g := artanh) p (contDiffAt_artanh (abs_lt.1 hlt).1 (abs_lt.1 hlt).2) ?_)
    exact (contDiffAt_const.mul hv1).div (hpsi1.add contDiffAt_const) (by positivity)
  simp only [derotate]
  exact ((hA.mul contDiffAt_const).sub (hB.mul contDiffAt_const)).prodMk
    ((hA.mul contDiffAt_const).add (hB.mul contDiffAt_const))

theorem C143_cored_sie (z x0 y0 q phi Rein s : ℝ) (hq : 0 < q) (hq1 : q < 1) (hR : 0 ≤ Rein) (hs : 0 < s) :
    (coredSie z x0 y0 q phi Rein s).Valid :=
  tame_of (c := (x0, y0)) (B := sieReach q Rein)
    (fun _ _ => sieDeflectionOpt_eq hq hq1.le hs.le (Or.inl hs)) (sie_contDiff x0 y0 q phi Rein s hq hq1 hs).continuous
    (fun _ _ => (sie_contDiff x0 y0 q phi Rein s hq hq1 hs).contDiffAt) (C128_sie x0 y0 q phi Rein s hq hq1 hR hs.le)

/-! ### The singular isothermal ellipsoid -/

/-- `SIE` without a core. -/
noncomputable def singularSie (z x0 y0 q phi Rein : ℝ) : PlaneMember :=
  .cone ⟨z, sieDeflectionOpt x0 y0 q phi Rein 0, fun x y => some (siePotential x0 y0 q phi Rein 0 x y)⟩ x0 y0
    (toC (sieDeflection 0 0 q phi Rein 0))

theorem singular_frame (q phi Rein : ℝ) (hq1 : q < 1) (v : ℂ) :
    toC (sieDeflection 0 0 q phi Rein 0) v = ((Rein * √q / √(1 - q ^ 2) : ℝ) : ℂ) *
      (⟨cos phi, sin phi⟩ * sieFrame q (conj (⟨cos phi, sin phi⟩ : ℂ) * v)) := by
  have hqq : sieQ q = q := by simp [sieQ, hq1.ne]
  have e1 : (conj (⟨cos phi, sin phi⟩ : ℂ) * v).re = v.re * cos phi + v.im * sin phi := by
    rw [Complex.mul_re, Complex.conj_re, Complex.conj_im]
    ring
  have e2 : (conj (⟨cos phi, sin phi⟩ : ℂ) * v).im = v.im * cos phi - v.re * sin phi := by
    rw [Complex.mul_im, Complex.conj_re, Complex.conj_im]
    ring
  simp only [toC, sieDeflection, hqq, translateRotate, derotate, sub_zero, sieFrame, e1, e2]
  norm_num only [zero_pow, add_zero, mul_zero]
  apply Complex.ext
  · rw [Complex.re_ofReal_mul, Complex.mul_re]
    ring
  · rw [Complex.im_ofReal_mul, Complex.mul_im]
    ring

theorem unit_ne (phi : ℝ) : (⟨cos phi, sin phi⟩ : ℂ) * conj (⟨cos phi, sin phi⟩ : ℂ) = 1 := by
  rw [Complex.mul_conj, Complex.normSq_apply]
  have := cos_sq_add_sin_sq phi
  rw [show cos phi * cos phi + sin phi * sin phi = 1 by linarith, Complex.ofReal_one]

theorem turn_ne {phi : ℝ} {v : ℂ} (hv : v ≠ 0) : conj (⟨cos phi, sin phi⟩ : ℂ) * v ≠ 0 := fun h => by
  rcases mul_eq_zero.1 h with h | h
  · have := unit_ne phi
    rw [h, mul_zero] at this
    exact zero_ne_one this
  · exact hv h

/-- The component of the deflection in a direction, in the frame of the axes. -/
theorem singular_component (q phi Rein : ℝ) (hq1 : q < 1) (u v : ℂ) :
    (toC (sieDeflection 0 0 q phi Rein 0) v * conj u).re = Rein * √q / √(1 - q ^ 2) *
      (sieFrame q (conj (⟨cos phi, sin phi⟩ : ℂ) * v) * conj (conj (⟨cos phi, sin phi⟩ : ℂ) * u)).re := by
  rw [singular_frame q phi Rein hq1, mul_assoc, Complex.re_ofReal_mul, map_mul, Complex.conj_conj]
  congr 2
  ring

theorem sieFrame_contDiffAt {q : ℝ} (hq : 0 < q) (hq1 : q < 1) {v : ℂ} (hv : v ≠ 0) :
    ContDiffAt ℝ 1 (sieFrame q) v := by
  have hr : ContDiffAt ℝ 1 (fun v : ℂ => v.re) v := Complex.reCLM.contDiff.contDiffAt
  have hi : ContDiffAt ℝ 1 (fun v : ℂ => v.im) v := Complex.imCLM.contDiff.contDiffAt
  have hp := sieFrame_radius hq hv
  have hS : ContDiffAt ℝ 1 (fun v : ℂ => √(q ^ 2 * v.re ^ 2 + v.im ^ 2)) v :=
    ((contDiffAt_const.mul (hr.pow 2)).add (hi.pow 2)).sqrt hp.ne'
  have hS0 := (sqrt_pos.2 hp).ne'
  have hlt := abs_lt.1 (sieFrame_lt hq hq1 hv)
  have hA : ContDiffAt ℝ 1 (fun v : ℂ => arctan (√(1 - q ^ 2) * v.re / √(q ^ 2 * v.re ^ 2 + v.im ^ 2))) v :=
    ContDiffAt.comp (g := arctan) v contDiff_arctan.contDiffAt ((contDiffAt_const.mul hr).div hS hS0)
  have hB : ContDiffAt ℝ 1 (fun v : ℂ => artanh (√(1 - q ^ 2) * v.im / √(q ^ 2 * v.re ^ 2 + v.im ^ 2))) v :=
    ContDiffAt.comp (g := artanh) v (contDiffAt_artanh hlt.1 hlt.2) ((contDiffAt_const.mul hi).div hS hS0)
  exact ContDiffAt.comp (g := Complex.equivRealProdCLM.symm) v Complex.equivRealProdCLM.symm.contDiff.contDiffAt
    (hA.prodMk hB)

theorem C143_singular_sie (z x0 y0 q phi Rein : ℝ) (hq : 0 < q) (hq1 : q < 1) (hR : 0 < Rein) :
    (singularSie z x0 y0 q phi Rein).Valid where
  value := fun p hp => by
    refine (sieDeflectionOpt_eq hq hq1.le le_rfl (Or.inr hp)).trans ?_
    simp only [toC, Complex.sub_re, Complex.sub_im, sieDeflection, translateRotate, sub_zero]
  centre := by
    have h0 : sqrtOpt 0 = some 0 := by rw [sqrtOpt_eq le_rfl, sqrt_zero]
    simp [sieDeflectionOpt, translateRotate, h0, divOpt_zero]
  smooth := fun v hv => by
    rw [show toC (sieDeflection 0 0 q phi Rein 0) = _ from funext (singular_frame q phi Rein hq1)]
    refine contDiffAt_const.mul (contDiffAt_const.mul (ContDiffAt.comp (g := sieFrame q) v ?_
      (contDiffAt_const.mul contDiffAt_id)))
    exact sieFrame_contDiffAt hq hq1 (turn_ne hv)
  scale := fun t ht v => by
    rw [singular_frame q phi Rein hq1, singular_frame q phi Rein hq1, mul_left_comm _ (t : ℂ) v, sieFrame_smul ht]
  bounded := by
    refine ⟨sieReach q Rein, fun v => ?_⟩
    have h1 := C128_sie 0 0 q phi Rein 0 hq hq1 hR.le le_rfl (v.re, v.im) (Real.sqrt_nonneg _)
    rw [zero_mul, add_zero, len2_eq_norm] at h1
    exact h1
  support := fun u v hu hv => by
    rw [singular_component q phi Rein hq1, singular_component q phi Rein hq1]
    exact mul_le_mul_of_nonneg_left (sieFrame_support hq hq1 (turn_ne hu) (turn_ne hv)) (by positivity)

/-- The cut of a singular isothermal ellipsoid in closed form. -/
theorem C143_sie_cut (z x0 y0 q phi Rein : ℝ) (hq : 0 < q) (hq1 : q < 1) (hR : 0 < Rein) (c b : ℝ × ℝ) :
    (singularSie z x0 y0 q phi Rein).inCut (c.1 - b.1, c.2 - b.2) ↔
      |(translateRotate c.1 c.2 b.1 b.2 (some phi)).1| < Rein * √q / √(1 - q ^ 2) * (π / 2) ∧
      q ^ 2 * tan ((translateRotate c.1 c.2 b.1 b.2 (some phi)).1 / (Rein * √q / √(1 - q ^ 2))) ^ 2 +
        tanh ((translateRotate c.1 c.2 b.1 b.2 (some phi)).2 / (Rein * √q / √(1 - q ^ 2))) ^ 2 < 1 - q ^ 2 := by
  have hf : 0 < √(1 - q ^ 2) := sqrt_pos.2 (by nlinarith)
  set k := Rein * √q / √(1 - q ^ 2) with hk
  have hk0 : 0 < k := by positivity
  set g := translateRotate c.1 c.2 b.1 b.2 (some phi) with hg
  have h1 := sieFrame_cut hq hq1 (⟨g.1 / k, g.2 / k⟩ : ℂ)
  simp only [abs_div, abs_of_pos hk0, div_lt_iff₀ hk0] at h1
  rw [mul_comm k, ← h1]
  have e : (⟨c.1 - b.1, c.2 - b.2⟩ : ℂ) = k * (⟨cos phi, sin phi⟩ * ⟨g.1 / k, g.2 / k⟩) := by
    have hsc := cos_sq_add_sin_sq phi
    have e1 : (⟨g.1, g.2⟩ : ℂ) = k * ⟨g.1 / k, g.2 / k⟩ := by
      apply Complex.ext <;> simp <;> field_simp
    rw [mul_left_comm, ← e1, hg]
    simp only [translateRotate]
    apply Complex.ext
    · rw [Complex.mul_re]
      linear_combination -(c.1 - b.1) * hsc
    · rw [Complex.mul_im]
      linear_combination -(c.2 - b.2) * hsc
  have key : ∀ v : ℂ, ((⟨c.1 - b.1, c.2 - b.2⟩ : ℂ) * conj v).re =
      k * ((⟨g.1 / k, g.2 / k⟩ : ℂ) * conj (conj (⟨cos phi, sin phi⟩ : ℂ) * v)).re := by
    intro v
    rw [e, mul_assoc, Complex.re_ofReal_mul, map_mul, Complex.conj_conj]
    congr 2
    ring
  simp only [singularSie, inCut]
  constructor
  · intro h v hv
    have hv' : (⟨cos phi, sin phi⟩ : ℂ) * v ≠ 0 := by
      refine mul_ne_zero (fun h0 => ?_) hv
      have := unit_ne phi
      rw [h0, zero_mul] at this
      exact zero_ne_one this
    have h2 := h _ hv'
    rw [key, singular_component q phi Rein hq1, ← hk, ← mul_assoc, mul_comm (conj _) (⟨cos phi, sin phi⟩ : ℂ), unit_ne,
      one_mul] at h2
    exact lt_of_mul_lt_mul_left h2 hk0.le
  · intro h v hv
    rw [key, singular_component q phi Rein hq1, ← hk]
    exact mul_lt_mul_of_pos_left (h _ (turn_ne hv)) hk0

/-- **The odd number theorem.** A plane without point masses and singular isothermal spheres that does not invert far
away: almost every source has an odd number of images, one more of positive parity than of negative parity. -/
theorem C143_odd (z : ℝ) (l : List PlaneMember) (hl : ∀ m ∈ l, m.Valid) (hp : ∀ m ∈ l, m.pole = none)
    (hdet : (l.map gam).sum.1 ^ 2 + (l.map gam).sum.2 ^ 2 < (1 - (l.map kap).sum) ^ 2) :
    ∀ᵐ b : ℝ × ℝ, (planeImages z l b).Finite ∧ (planeImages z l b).ncard % 2 = 1 ∧
      ∃ J : ℝ × ℝ → M22 ℝ, (∀ p ∈ planeImages z l b, PlaneJacobian z l p (J p)) ∧
        {p ∈ planeImages z l b | 0 < (J p).a00 * (J p).a11 - (J p).a01 * (J p).a10}.ncard =
        {p ∈ planeImages z l b | (J p).a00 * (J p).a11 - (J p).a01 * (J p).a10 < 0}.ncard + 1 := by
  have hs : Separate z l := fun pre post m p he hm => by
    have := hp m (by rw [he]; simp)
    rw [cusp_pole hm] at this
    simp at this
  have hst : planeStars l = ∅ := Finset.eq_empty_of_forall_notMem fun p h => by
    obtain ⟨m, hm, h1⟩ := mem_planeStars.1 h
    have := hp m hm
    rw [star_pole h1] at this
    simp at this
  have hco : ∀ b, {p | CutCovers z l b p} = ∅ := fun b => Set.eq_empty_of_forall_notMem fun p h => by
    obtain ⟨pre, post, m, c, h1, h2, -⟩ := h
    have := hp m (by rw [h1]; simp)
    rw [cusp_pole h2] at this
    simp at this
  filter_upwards [C143_almost_every z l hl hs hdet.ne', C143_almost_every_regular z l hl hs] with b h1 h2
  obtain ⟨hg, J, hJ, hreg⟩ := h2
  have h3 := (C143_parities z l hl b hg hdet.ne' hJ hreg).2
  rw [if_pos hdet, hst, hco b, Set.ncard_empty, Finset.card_empty] at h3
  have h4 := h1.2.1
  rw [hst, hco b, Set.ncard_empty, Finset.card_empty] at h4
  exact ⟨h1.1, h4, J, hJ, by omega⟩

/-- A cored isothermal ellipsoid with external shear and any number of softened isothermal spheres and point masses
beside it. -/
theorem C143_galaxy (z x0 y0 q phi Rein s g1 g2 : ℝ) (hq : 0 < q) (hq1 : q < 1) (hR : 0 ≤ Rein) (hs : 0 < s)
    (hg : g1 ^ 2 + g2 ^ 2 < 1) (n : ℕ) (X Y R S : Fin n → ℝ) (hRn : ∀ i, 0 ≤ R i) (hS : ∀ i, 0 < S i) :
    ∀ᵐ b : ℝ × ℝ, (planeImages z (coredSie z x0 y0 q phi Rein s :: .field (.shear 0 0 g1 g2) ::
      List.ofFn fun i => softSis z (X i) (Y i) (R i) (S i)) b).ncard % 2 = 1 := by
  have hk : ((List.ofFn fun i => softSis z (X i) (Y i) (R i) (S i)).map kap).sum = 0 := by
    rw [List.map_ofFn]
    exact List.sum_eq_zero fun x hx => by
      obtain ⟨i, rfl⟩ := (List.mem_ofFn' _ _).1 hx
      rfl
  have hgm : ((List.ofFn fun i => softSis z (X i) (Y i) (R i) (S i)).map gam).sum = 0 := by
    rw [List.map_ofFn]
    exact List.sum_eq_zero fun x hx => by
      obtain ⟨i, rfl⟩ := (List.mem_ofFn' _ _).1 hx
      rfl
  have h := C143_odd z (coredSie z x0 y0 q phi Rein s :: .field (.shear 0 0 g1 g2) ::
    List.ofFn fun i => softSis z (X i) (Y i) (R i) (S i)) ?_ ?_ ?_
  · filter_upwards [h] with b hb
    exact hb.2.1
  · rw [List.forall_mem_cons, List.forall_mem_cons]
    refine ⟨C143_cored_sie z x0 y0 q phi Rein s hq hq1 hR hs, trivial, fun m hm => ?_⟩
    obtain ⟨i, rfl⟩ := (List.mem_ofFn' _ _).1 hm
    exact C143_soft_sis z _ _ _ _ (hRn i) (hS i)
  · rw [List.forall_mem_cons, List.forall_mem_cons]
    refine ⟨rfl, rfl, fun m hm => ?_⟩
    obtain ⟨i, rfl⟩ := (List.mem_ofFn' _ _).1 hm
    rfl
  · simp only [List.map_cons, List.sum_cons, hk, hgm, add_zero]
    simpa [coredSie, gam, kap, kappa, gamma] using hg

/-- One singular member among any members that are smooth at its centre and no point masses: the number of images is even
where its cut covers the source, odd elsewhere. -/
theorem C143_one_cusp (z : ℝ) (s : PlaneMember) (hv : s.Valid) {p : ℝ × ℝ} (hsp : s.cusp = some p) (l : List PlaneMember)
    (hl : ∀ m ∈ l, m.Valid) (hp : ∀ m ∈ l, m.pole = none) (hk : p ∉ planeKinks l) {c : ℝ × ℝ}
    (hc : raytraceOpt (singlePlaneO z (l.map (lens z))).reduced p.1 p.2 = some c)
    (hdet : (1 - (l.map kap).sum) ^ 2 ≠ (l.map gam).sum.1 ^ 2 + (l.map gam).sum.2 ^ 2) :
    ∀ᵐ b : ℝ × ℝ, ((planeImages z (s :: l) b).ncard % 2 = 0 ↔ s.inCut (c.1 - b.1, c.2 - b.2)) := by
  have hone : ∀ pre post m p', s :: l = pre ++ m :: post → m.cusp = some p' → pre = [] ∧ post = l ∧ m = s := by
    intro pre post m p' he hm
    cases pre with
    | nil =>
      rw [List.nil_append, List.cons.injEq] at he
      exact ⟨rfl, he.2.symm, he.1.symm⟩
    | cons m' pre =>
      rw [List.cons_append, List.cons.injEq] at he
      have := hp m (by rw [he.2]; simp)
      rw [cusp_pole hm] at this
      simp at this
  have hks : s.kinkSet = ∅ ∧ s.kap = 0 ∧ s.gam = 0 := by
    cases s with
    | field => simp [cusp] at hsp
    | sis => exact ⟨rfl, rfl, rfl⟩
    | cone => exact ⟨rfl, rfl, rfl⟩
    | spike => simp [cusp] at hsp
    | other => simp [cusp] at hsp
  have hs : Separate z (s :: l) := fun pre post m p' he hm => by
    obtain ⟨rfl, rfl, rfl⟩ := hone _ _ _ _ he hm
    obtain rfl := Option.some.inj (hsp.symm.trans hm)
    refine ⟨?_, c, hc⟩
    rw [mem_planeKinks] at hk ⊢
    rintro ⟨m', hm', h⟩
    rcases List.mem_cons.1 hm' with rfl | hm'
    · rw [hks.1] at h
      simp at h
    · exact hk ⟨m', hm', h⟩
  have hst : planeStars (s :: l) = ∅ := Finset.eq_empty_of_forall_notMem fun p h => by
    obtain ⟨m, hm, h1⟩ := mem_planeStars.1 h
    rcases List.mem_cons.1 hm with rfl | hm
    · exact absurd h1 (cusp_not_star hsp)
    · have := hp m hm
      rw [star_pole h1] at this
      simp at this
  have h := C143_almost_every z (s :: l) (by
    rw [List.forall_mem_cons]
    exact ⟨hv, hl⟩) hs (by simpa [hks.2.1, hks.2.2] using hdet)
  filter_upwards [h] with b hb
  have h1 := hb.2.1
  rw [hst, Finset.card_empty] at h1
  by_cases hcov : s.inCut (c.1 - b.1, c.2 - b.2)
  · have : {p | CutCovers z (s :: l) b p} = {p} := by
      ext p'
      rw [Set.mem_singleton_iff]
      constructor
      · rintro ⟨pre, post, m, c', he, hm, -⟩
        obtain ⟨-, -, rfl⟩ := hone _ _ _ _ he hm
        exact Option.some.inj (hm.symm.trans hsp)
      · rintro rfl
        exact ⟨[], l, s, c, rfl, hsp, hc, hcov⟩
    rw [this, Set.ncard_singleton] at h1
    simp only [hcov, iff_true]
    omega
  · have : {p | CutCovers z (s :: l) b p} = ∅ := Set.eq_empty_of_forall_notMem fun p' hp' => by
      obtain ⟨pre, post, m, c', he, hm, h2, h3⟩ := hp'
      obtain ⟨rfl, rfl, rfl⟩ := hone _ _ _ _ he hm
      obtain rfl := Option.some.inj (hsp.symm.trans hm)
      rw [List.nil_append, hc] at h2
      obtain rfl := Option.some.inj h2
      exact hcov h3
    rw [this, Set.ncard_empty] at h1
    simp only [hcov, iff_false]
    omega

/-- A singular isothermal sphere: the cut is a disc with the Einstein radius. -/
theorem C143_one_sis (z x0 y0 R : ℝ) (hR : 0 < R) (l : List PlaneMember) (hl : ∀ m ∈ l, m.Valid)
    (hp : ∀ m ∈ l, m.pole = none) (hk : (x0, y0) ∉ planeKinks l) {c : ℝ × ℝ}
    (hc : raytraceOpt (singlePlaneO z (l.map (lens z))).reduced x0 y0 = some c)
    (hdet : (1 - (l.map kap).sum) ^ 2 ≠ (l.map gam).sum.1 ^ 2 + (l.map gam).sum.2 ^ 2) :
    ∀ᵐ b : ℝ × ℝ, ((planeImages z (.sis x0 y0 R :: l) b).ncard % 2 = 0 ↔ (c.1 - b.1) ^ 2 + (c.2 - b.2) ^ 2 < R ^ 2) :=
  C143_one_cusp z (.sis x0 y0 R) hR rfl l hl hp hk hc hdet

/-- A singular isothermal ellipsoid: the cut has the shape `q² tan² x + tanh² y < 1 - q²` in the frame of its axes. -/
theorem C143_one_sie (z x0 y0 q phi Rein : ℝ) (hq : 0 < q) (hq1 : q < 1) (hR : 0 < Rein) (l : List PlaneMember)
    (hl : ∀ m ∈ l, m.Valid) (hp : ∀ m ∈ l, m.pole = none) (hk : (x0, y0) ∉ planeKinks l) {c : ℝ × ℝ}
    (hc : raytraceOpt (singlePlaneO z (l.map (lens z))).reduced x0 y0 = some c)
    (hdet : (1 - (l.map kap).sum) ^ 2 ≠ (l.map gam).sum.1 ^ 2 + (l.map gam).sum.2 ^ 2) :
    ∀ᵐ b : ℝ × ℝ, ((planeImages z (singularSie z x0 y0 q phi Rein :: l) b).ncard % 2 = 0 ↔
      |(translateRotate c.1 c.2 b.1 b.2 (some phi)).1| < Rein * √q / √(1 - q ^ 2) * (π / 2) ∧
      q ^ 2 * tan ((translateRotate c.1 c.2 b.1 b.2 (some phi)).1 / (Rein * √q / √(1 - q ^ 2))) ^ 2 +
        tanh ((translateRotate c.1 c.2 b.1 b.2 (some phi)).2 / (Rein * √q / √(1 - q ^ 2))) ^ 2 < 1 - q ^ 2) := by
  filter_upwards [C143_one_cusp z _ (C143_singular_sie z x0 y0 q phi Rein hq hq1 hR) rfl l hl hp hk hc hdet] with b hb
  rw [hb]
  exact C143_sie_cut z x0 y0 q phi Rein hq hq1 hR c b

/-- An isothermal sphere with external shear. -/
example : ∀ᵐ b : ℝ × ℝ, ((planeImages (1 / 2) [.sis 0 0 1, .field (.shear 0 0 (1 / 10) (1 / 5))] b).ncard % 2 = 0 ↔
    b.1 ^ 2 + b.2 ^ 2 < 1) := by
  have h := C143_one_sis (1 / 2) 0 0 1 one_pos [.field (.shear 0 0 (1 / 10) (1 / 5))] (by simp [Valid, Ok])
    (by simp [pole, place]) (by simp [mem_planeKinks, kinkSet]) (c := (0, 0)) (by
      rw [plane_value _ _ (by simp [Valid, Ok]) (0, 0) (by simp [mem_planeKinks, kinkSet])]
      refine ⟨by simp [mem_planePoles, pole, place], ?_⟩
      have h0 : (⟨0, 0⟩ : ℂ) = 0 := rfl
      simp [planeMap, cd, cdefl, h0]) (by norm_num [kap, gam, kappa, gamma])
  filter_upwards [h] with b hb
  simpa using hb

/-- A singular isothermal ellipsoid with external shear. -/
example : ∀ᵐ b : ℝ × ℝ, ((planeImages (1 / 2) [singularSie (1 / 2) 0 0 (3 / 5) 0 1, .field (.shear 0 0 (1 / 10) (1 / 5))]
    b).ncard % 2 = 0 ↔ |b.1| < √(3 / 5) / (4 / 5) * (π / 2) ∧
      (3 / 5) ^ 2 * tan (b.1 / (√(3 / 5) / (4 / 5))) ^ 2 + tanh (b.2 / (√(3 / 5) / (4 / 5))) ^ 2 < 16 / 25) := by
  have h := C143_one_sie (1 / 2) 0 0 (3 / 5) 0 1 (by norm_num) (by norm_num) one_pos [.field (.shear 0 0 (1 / 10) (1 / 5))]
    (by simp [Valid, Ok]) (by simp [pole, place]) (by simp [mem_planeKinks, kinkSet]) (c := (0, 0)) (by
      rw [plane_value _ _ (by simp [Valid, Ok]) (0, 0) (by simp [mem_planeKinks, kinkSet])]
      refine ⟨by simp [mem_planePoles, pole, place], ?_⟩
      have h0 : (⟨0, 0⟩ : ℂ) = 0 := rfl
      simp [planeMap, cd, cdefl, h0]) (by norm_num [kap, gam, kappa, gamma])
  have e : √(1 - (3 / 5 : ℝ) ^ 2) = 4 / 5 := by
    rw [show (1 - (3 / 5 : ℝ) ^ 2) = (4 / 5) ^ 2 by norm_num, sqrt_sq (by norm_num)]
  have e2 : (1 - (3 / 5 : ℝ) ^ 2) = 16 / 25 := by norm_num
  filter_upwards [h] with b hb
  rw [e, e2] at hb
  simpa [translateRotate, neg_div, tan_neg, tanh_neg] using hb

example := C143_galaxy (1 / 2) 0 0 (7 / 10) 1 1 (1 / 10) (1 / 20) 0 (by norm_num) (by norm_num) (by norm_num) (by norm_num)
  (by norm_num) 2 ![1, 2] ![0, 1] ![1 / 10, 1 / 5] ![1 / 100, 1 / 50] (by intro i; fin_cases i <;> norm_num)
  (by intro i; fin_cases i <;> norm_num)

end Caustics
