import Verif.Lemmas.GammaMedian
import Verif.Props.Light

/-! C84: the flux of a Sersic source and its half-light radius. -/

open Real MeasureTheory Set

namespace Caustics

/-- The `k` a Sersic source uses. -/
noncomputable def sersicK (lenstronomy : Bool) (n : ℝ) : ℝ := if lenstronomy then kLenstronomy n else kSersic n

theorem sersicK_pos (lenstronomy : Bool) {n : ℝ} (hn : 0.36 ≤ n) : 0 < sersicK lenstronomy n := by
  cases lenstronomy
  · exact (C46_k_positive hn).1
  · exact (C46_k_positive hn).2

theorem sersic_class_eq (b : Bool) (x0 y0 q phi n Re Ie x y : ℝ) :
    Sersic.brightness b 0 x0 y0 q phi n Re Ie x y
      = Ie * exp (-sersicK b n * ((ellRadius x0 y0 q phi x y / Re) ^ (1 / n) - 1)) := by
  have : Sersic.brightness b 0 x0 y0 q phi n Re Ie x y = brightnessSersic x0 y0 q phi n Re Ie x y (sersicK b n) 0 := rfl
  rw [this, brightnessSersic_eq, add_zero]

theorem ellRadius_affine (x0 y0 q phi x y : ℝ) :
    ellRadius x0 y0 q phi x y = √((cos phi * (x - x0) + sin phi * (y - y0)) ^ 2
      + (-sin phi / q * (x - x0) + cos phi / q * (y - y0)) ^ 2) := by
  unfold ellRadius
  congr 1
  ring

theorem ell_det {q : ℝ} (hq : 0 < q) (phi : ℝ) :
    cos phi * (cos phi / q) - sin phi * (-sin phi / q) = q⁻¹ := by
  have := sin_sq_add_cos_sq phi
  field_simp
  linarith

/-- The total flux: finite, and a product of a function of `n`, the intensity, the square of the
effective radius and the axis ratio.  It does not depend on where the source is or how it is turned. -/
theorem C84_total (lenstronomy : Bool) {x0 y0 q phi n Re Ie : ℝ} (hn : 0.36 ≤ n) (hq : 0 < q) (hRe : 0 < Re) :
    let k := sersicK lenstronomy n
    Integrable (fun p : ℝ × ℝ => Sersic.brightness lenstronomy 0 x0 y0 q phi n Re Ie p.1 p.2) ∧
    ∫ p : ℝ × ℝ, Sersic.brightness lenstronomy 0 x0 y0 q phi n Re Ie p.1 p.2
      = 2 * π * q * n * Ie * Re ^ 2 * exp k * k ^ (-(2 * n)) * Gamma (2 * n) := by
  intro k
  have hn0 : 0 < n := by norm_num at hn; linarith
  have hk : 0 < k := sersicK_pos lenstronomy hn
  have hI : ∀ J : ℝ, ∫ p : ℝ × ℝ, Sersic.brightness lenstronomy 0 x0 y0 q phi n Re J p.1 p.2
      = 2 * π * q * n * J * Re ^ 2 * exp k * k ^ (-(2 * n)) * Gamma (2 * n) := by
    intro J
    simp only [sersic_class_eq, ellRadius_affine]
    have hdet : cos phi * (cos phi / q) - sin phi * (-sin phi / q) ≠ 0 := by rw [ell_det hq]; positivity
    have h1 := integral_affine (fun p => J * exp (-k * ((√(p.1 ^ 2 + p.2 ^ 2) / Re) ^ (1 / n) - 1))) hdet x0 y0
    rw [h1, plane_integral_eq (fun r => J * exp (-k * ((r / Re) ^ (1 / n) - 1))), sersic_radial_total hn0 hRe hk,
      ell_det hq, abs_of_pos (by positivity), inv_inv]
    ring
  refine ⟨?_, hI Ie⟩
  have h1 : Integrable fun p : ℝ × ℝ => Sersic.brightness lenstronomy 0 x0 y0 q phi n Re 1 p.1 p.2 := by
    by_contra h
    have h0 := hI 1
    rw [integral_undef h] at h0
    have : 0 < 2 * π * q * n * 1 * Re ^ 2 * exp k * k ^ (-(2 * n)) * Gamma (2 * n) := by
      have := Gamma_pos_of_pos (by positivity : 0 < 2 * n)
      have := rpow_pos_of_pos hk (-(2 * n))
      positivity
    linarith
  have h2 := h1.const_mul Ie
  simp only [sersic_class_eq, one_mul] at h2 ⊢
  exact h2

/-- The flux inside an ellipse with the axis ratio and the orientation of the source. -/
theorem C84_within (lenstronomy : Bool) {x0 y0 q phi n Re Ie R : ℝ} (hn : 0.36 ≤ n) (hq : 0 < q) (hRe : 0 < Re)
    (hIe : 0 ≤ Ie) (hR : 0 < R) :
    let k := sersicK lenstronomy n
    ∫ p in {p : ℝ × ℝ | ellRadius x0 y0 q phi p.1 p.2 ≤ R}, Sersic.brightness lenstronomy 0 x0 y0 q phi n Re Ie p.1 p.2
      = (∫ p : ℝ × ℝ, Sersic.brightness lenstronomy 0 x0 y0 q phi n Re Ie p.1 p.2)
        * ((∫ u in (0 : ℝ)..k * (R / Re) ^ (1 / n), u ^ (2 * n - 1) * exp (-u)) / Gamma (2 * n)) := by
  intro k
  have hn0 : 0 < n := by norm_num at hn; linarith
  have hk : 0 < k := sersicK_pos lenstronomy hn
  rw [(C84_total lenstronomy hn hq hRe).2]
  have hdet : cos phi * (cos phi / q) - sin phi * (-sin phi / q) ≠ 0 := by rw [ell_det hq]; positivity
  have hs : {p : ℝ × ℝ | ellRadius x0 y0 q phi p.1 p.2 ≤ R} = {p : ℝ × ℝ | (cos phi * (p.1 - x0) + sin phi * (p.2 - y0)) ^ 2
      + (-sin phi / q * (p.1 - x0) + cos phi / q * (p.2 - y0)) ^ 2 ≤ R ^ 2} := by
    ext p
    rw [mem_setOf_eq, mem_setOf_eq, ellRadius_affine, sqrt_le_left hR.le]
  rw [hs]
  simp only [sersic_class_eq, ellRadius_affine]
  have h := ellipse_integral (f := fun r => Ie * exp (-k * ((r / Re) ^ (1 / n) - 1))) (M := sersicM n Re Ie k) hdet x0 y0 hR
    (sersicM_zero hn0) (continuousOn_sersicM hn0 hRe hk) (fun r hr => hasDerivAt_sersicM hn0 hRe hk hr.1)
    (fun r _ => mul_nonneg hIe (exp_pos _).le)
  rw [h, ell_det hq, abs_of_pos (by positivity), inv_inv, sersicM, lowerGamma]
  have := (Gamma_pos_of_pos (by positivity : 0 < 2 * n)).ne'
  generalize Gamma (2 * n) = G at *
  generalize (∫ u in (0 : ℝ)..k * (R / Re) ^ (1 / n), u ^ (2 * n - 1) * exp (-u)) = J
  generalize k ^ (-(2 * n)) = K
  rw [mul_div_assoc', eq_div_iff this]
  ring

/-- `k_sersic` is a little above `2 n - 1/3`. -/
theorem kSersic_near {n : ℝ} (hn : 1 / 2 ≤ n) : 2 * n - 1 / 3 ≤ kSersic n ∧ kSersic n ≤ 2 * n - 1 / 3 + 3 / (100 * n) := by
  have hn0 : 0 < n := by linarith
  have hx : 0 < 1 / n := by positivity
  have hx2 : 1 / n ≤ 2 := by rw [div_le_iff₀ hn0]; linarith
  rw [show 3 / (100 * n) = 3 / 100 * (1 / n) by field_simp]
  unfold kSersic
  simp only
  generalize 1 / n = t at *
  have h2 : -(1 / 1000 : ℝ) ≤ t * (131 / 1148175 - t * (2194697 / 30690717750)) := by nlinarith
  have h2' : t * (131 / 1148175 - t * (2194697 / 30690717750)) ≤ 3 / 10000 := by nlinarith
  have h3 : 0 < 46 / 25515 + t * (131 / 1148175 - t * (2194697 / 30690717750)) := by norm_num at h2 ⊢; linarith
  have h3' : 46 / 25515 + t * (131 / 1148175 - t * (2194697 / 30690717750)) ≤ 22 / 10000 := by norm_num at h2' ⊢; linarith
  generalize 46 / 25515 + t * (131 / 1148175 - t * (2194697 / 30690717750)) = B at *
  have h4 : 0 < t * B := mul_pos hx h3
  have h4' : t * B ≤ 44 / 10000 := by nlinarith
  constructor
  · have : 0 < t * (4 / 405 + t * B) := by positivity
    linarith
  · have : t * (4 / 405 + t * B) ≤ t * (3 / 100) := by
      apply mul_le_mul_of_nonneg_left _ hx.le
      norm_num at h4' ⊢
      linarith
    linarith

/-- The fraction of the Gamma integral below `k`. -/
theorem sersic_fraction {n : ℝ} (hn : 1 / 2 ≤ n) :
    |lowerGamma (2 * n) (kSersic n) / Gamma (2 * n) - 1 / 2| ≤ 3 / (100 * n) := by
  have hn0 : 0 < n := by linarith
  have hG := Gamma_pos_of_pos (by positivity : 0 < 2 * n)
  obtain ⟨k1, k2⟩ := kSersic_near hn
  obtain ⟨l1, l2⟩ := lowerGamma_third (a := 2 * n) (by linarith)
  obtain ⟨s1, s2⟩ := lowerGamma_step (a := 2 * n) (by linarith) (by linarith : 0 ≤ 2 * n - 1 / 3) k1
  rw [show 6 / (100 * (2 * n)) = 3 / (100 * n) by field_simp; norm_num] at l1
  rw [abs_le]
  constructor
  · rw [le_sub_iff_add_le, le_div_iff₀ hG]
    linarith
  · rw [sub_le_iff_le_add, div_le_iff₀ hG]
    nlinarith

/-- The effective radius encloses half of the light: for every index from one half on the flux inside
it differs from one half of the total by at most `3 / n` per cent. -/
theorem C84_half_light {x0 y0 q phi n Re Ie : ℝ} (hn : 1 / 2 ≤ n) (hq : 0 < q) (hRe : 0 < Re) (hIe : 0 ≤ Ie) :
    let F := ∫ p : ℝ × ℝ, Sersic.brightness false 0 x0 y0 q phi n Re Ie p.1 p.2
    |(∫ p in {p : ℝ × ℝ | ellRadius x0 y0 q phi p.1 p.2 ≤ Re}, Sersic.brightness false 0 x0 y0 q phi n Re Ie p.1 p.2) - F / 2|
      ≤ 3 / (100 * n) * F := by
  intro F
  have hn' : (0.36 : ℝ) ≤ n := by norm_num; linarith
  have hF : 0 ≤ F := integral_nonneg fun p => by
    simp only [sersic_class_eq]
    exact mul_nonneg hIe (exp_pos _).le
  have h := C84_within false (x0 := x0) (y0 := y0) (phi := phi) (R := Re) hn' hq hRe hIe hRe
  simp only at h
  rw [div_self hRe.ne', one_rpow, mul_one] at h
  rw [h]
  have hs := sersic_fraction hn
  change |F * (lowerGamma (2 * n) (kSersic n) / Gamma (2 * n)) - F / 2| ≤ _
  rw [show F * (lowerGamma (2 * n) (kSersic n) / Gamma (2 * n)) - F / 2
    = (lowerGamma (2 * n) (kSersic n) / Gamma (2 * n) - 1 / 2) * F by ring, abs_mul, abs_of_nonneg hF]
  exact mul_le_mul_of_nonneg_right hs hF

/-- With the other formula for `k` the same holds up to three per cent more, in the range of `n` the
class accepts. -/
theorem C84_half_light_lenstronomy {x0 y0 q phi n Re Ie : ℝ} (hn : 1 / 2 ≤ n) (hn2 : n ≤ 10) (hq : 0 < q) (hRe : 0 < Re)
    (hIe : 0 ≤ Ie) :
    let F := ∫ p : ℝ × ℝ, Sersic.brightness true 0 x0 y0 q phi n Re Ie p.1 p.2
    |(∫ p in {p : ℝ × ℝ | ellRadius x0 y0 q phi p.1 p.2 ≤ Re}, Sersic.brightness true 0 x0 y0 q phi n Re Ie p.1 p.2) - F / 2|
      ≤ (3 / (100 * n) + 3 / 100) * F := by
  intro F
  have hn' : (0.36 : ℝ) ≤ n := by norm_num; linarith
  have hF : 0 ≤ F := integral_nonneg fun p => by
    simp only [sersic_class_eq]
    exact mul_nonneg hIe (exp_pos _).le
  have h := C84_within true (x0 := x0) (y0 := y0) (phi := phi) (R := Re) hn' hq hRe hIe hRe
  simp only at h
  rw [div_self hRe.ne', one_rpow, mul_one] at h
  rw [h]
  have hs := sersic_fraction hn
  have hG := Gamma_pos_of_pos (by linarith : 0 < 2 * n)
  have hd : |lowerGamma (2 * n) (kLenstronomy n) / Gamma (2 * n) - lowerGamma (2 * n) (kSersic n) / Gamma (2 * n)| ≤ 3 / 100 := by
    have hk := abs_le.1 (C46_k_modes hn hn2)
    have p1 := (C46_k_positive hn').1.le
    have p2 := (C46_k_positive hn').2.le
    rw [← sub_div, abs_div, abs_of_pos hG, div_le_iff₀ hG, abs_le]
    rcases le_total (kSersic n) (kLenstronomy n) with hle | hle
    · obtain ⟨s1, s2⟩ := lowerGamma_step (a := 2 * n) (by linarith) p1 hle
      constructor <;> nlinarith [hk.1, hk.2]
    · obtain ⟨s1, s2⟩ := lowerGamma_step (a := 2 * n) (by linarith) p2 hle
      constructor <;> nlinarith [hk.1, hk.2]
  have hsum : |lowerGamma (2 * n) (kLenstronomy n) / Gamma (2 * n) - 1 / 2| ≤ 3 / (100 * n) + 3 / 100 := by
    have := abs_add_le (lowerGamma (2 * n) (kLenstronomy n) / Gamma (2 * n) - lowerGamma (2 * n) (kSersic n) / Gamma (2 * n))
      (lowerGamma (2 * n) (kSersic n) / Gamma (2 * n) - 1 / 2)
    rw [sub_add_sub_cancel] at this
    linarith
  change |F * (lowerGamma (2 * n) (kLenstronomy n) / Gamma (2 * n)) - F / 2| ≤ _
  rw [show F * (lowerGamma (2 * n) (kLenstronomy n) / Gamma (2 * n)) - F / 2
    = (lowerGamma (2 * n) (kLenstronomy n) / Gamma (2 * n) - 1 / 2) * F by ring, abs_mul, abs_of_nonneg hF]
  exact mul_le_mul_of_nonneg_right hsum hF

/-- Softening dims the source: its flux stays positive and is strictly below the flux without
softening. -/
theorem C84_softened (lenstronomy : Bool) {x0 y0 q phi n Re Ie s : ℝ} (hn : 0.36 ≤ n) (hq : 0 < q) (hRe : 0 < Re)
    (hIe : 0 < Ie) (hs : 0 < s) :
    let F := fun s => ∫ p : ℝ × ℝ, Sersic.brightness lenstronomy s x0 y0 q phi n Re Ie p.1 p.2
    0 < F s ∧ F s < F 0 := by
  intro F
  have hn0 : 0 < n := by norm_num at hn; linarith
  have hk : 0 < sersicK lenstronomy n := sersicK_pos lenstronomy hn
  have i0 := (C84_total lenstronomy (x0 := x0) (y0 := y0) (phi := phi) (Ie := Ie) hn hq hRe).1
  have e : ∀ x y, Sersic.brightness lenstronomy s x0 y0 q phi n Re Ie x y
      = Ie * exp (-sersicK lenstronomy n * (((ellRadius x0 y0 q phi x y + s) / Re) ^ (1 / n) - 1)) := fun x y => rfl
  have hpos : ∀ p : ℝ × ℝ, 0 < Sersic.brightness lenstronomy s x0 y0 q phi n Re Ie p.1 p.2 := fun p => by
    rw [e]; positivity
  have hlt : ∀ p : ℝ × ℝ, Sersic.brightness lenstronomy s x0 y0 q phi n Re Ie p.1 p.2
      < Sersic.brightness lenstronomy 0 x0 y0 q phi n Re Ie p.1 p.2 := fun p => by
    rw [e, sersic_class_eq]
    have h0 : 0 ≤ ellRadius x0 y0 q phi p.1 p.2 := sqrt_nonneg _
    have h1 : (ellRadius x0 y0 q phi p.1 p.2 / Re) ^ (1 / n) < ((ellRadius x0 y0 q phi p.1 p.2 + s) / Re) ^ (1 / n) := by
      apply rpow_lt_rpow (by positivity) _ (by positivity)
      gcongr
      linarith
    apply mul_lt_mul_of_pos_left _ hIe
    rw [exp_lt_exp]
    nlinarith
  have hcont : Continuous fun p : ℝ × ℝ => Sersic.brightness lenstronomy s x0 y0 q phi n Re Ie p.1 p.2 := by
    simp only [e]
    have hc : Continuous fun p : ℝ × ℝ => ellRadius x0 y0 q phi p.1 p.2 := by unfold ellRadius; fun_prop
    have : Continuous fun p : ℝ × ℝ => ((ellRadius x0 y0 q phi p.1 p.2 + s) / Re) ^ (1 / n) :=
      Continuous.rpow_const (by fun_prop) fun p => .inr (by positivity)
    fun_prop
  have i1 : Integrable fun p : ℝ × ℝ => Sersic.brightness lenstronomy s x0 y0 q phi n Re Ie p.1 p.2 := by
    refine i0.mono' hcont.aestronglyMeasurable (.of_forall fun p => ?_)
    rw [norm_of_nonneg (hpos p).le]
    exact (hlt p).le
  constructor
  · refine (integral_pos_iff_support_of_nonneg (fun p => (hpos p).le) i1).2 ?_
    have : Function.support (fun p : ℝ × ℝ => Sersic.brightness lenstronomy s x0 y0 q phi n Re Ie p.1 p.2) = univ := by
      ext p; simp [(hpos p).ne']
    rw [this]
    simp
  · have h := (integral_pos_iff_support_of_nonneg (fun p => (sub_pos.2 (hlt p)).le) (i0.sub i1)).2 ?_
    · rw [integral_sub i0 i1] at h
      exact sub_pos.1 h
    · have : Function.support (fun p : ℝ × ℝ => Sersic.brightness lenstronomy 0 x0 y0 q phi n Re Ie p.1 p.2
        - Sersic.brightness lenstronomy s x0 y0 q phi n Re Ie p.1 p.2) = univ := by
        ext p; simp [(sub_pos.2 (hlt p)).ne']
      have h2 : (0 : ENNReal) < volume (univ : Set (ℝ × ℝ)) := by simp
      rw [← this] at h2
      exact h2

/-- An exponential disc with intensity 3, effective radius 2, axis ratio 1/2: the total flux in terms of
`k`, and the flux inside the effective radius between 47 and 53 per cent of it. -/
example (x0 y0 phi : ℝ) :
    (∫ p : ℝ × ℝ, Sersic.brightness false 0 x0 y0 (1 / 2) phi 1 2 3 p.1 p.2 = 12 * π * exp (kSersic 1) / kSersic 1 ^ 2) ∧
    |(∫ p in {p : ℝ × ℝ | ellRadius x0 y0 (1 / 2) phi p.1 p.2 ≤ 2}, Sersic.brightness false 0 x0 y0 (1 / 2) phi 1 2 3 p.1 p.2)
        - 12 * π * exp (kSersic 1) / kSersic 1 ^ 2 / 2| ≤ 3 / 100 * (12 * π * exp (kSersic 1) / kSersic 1 ^ 2) := by
  have hk := (C46_k_positive (n := 1) (by norm_num)).1
  have h := (C84_total false (x0 := x0) (y0 := y0) (q := 1 / 2) (phi := phi) (n := 1) (Re := 2) (Ie := 3) (by norm_num) (by norm_num)
    (by norm_num)).2
  have e : ∫ p : ℝ × ℝ, Sersic.brightness false 0 x0 y0 (1 / 2) phi 1 2 3 p.1 p.2 = 12 * π * exp (kSersic 1) / kSersic 1 ^ 2 := by
    rw [h, show sersicK false 1 = kSersic 1 from rfl, show (2 * 1 : ℝ) = 2 by norm_num, mul_one, rpow_neg hk.le,
      show Gamma 2 = 1 by rw [show (2 : ℝ) = 1 + 1 by norm_num, Gamma_add_one (by norm_num), Gamma_one, mul_one]]
    rw [rpow_two]
    ring
  refine ⟨e, ?_⟩
  have h2 := C84_half_light (x0 := x0) (y0 := y0) (q := 1 / 2) (phi := phi) (n := 1) (Re := 2) (Ie := 3) (by norm_num) (by norm_num)
    (by norm_num) (by norm_num)
  rw [e] at h2
  simpa using h2

end Caustics
