import Verif.Lemmas.SersicFlux
import Mathlib.Analysis.Real.Pi.Bounds
import Mathlib.Analysis.SpecialFunctions.Gaussian.GaussianIntegral
import Mathlib.Analysis.SpecialFunctions.Log.Deriv
import Mathlib.Analysis.Calculus.Deriv.MeanValue

/-! The median of the Gamma distribution with parameter `a` lies just above `a - 1/3`.

With `m = a - 1/3` and `u = m v ^ 3` the integrand becomes `w m v = v ^ (3 m) exp (-m v ^ 3)`, which is
almost symmetric about `v = 1`: the quotient of its values at `1 - t` and `1 + t` is
`exp (-6 m (t ^ 5 / 5 + t ^ 7 / 7 + ...))`. -/

open Real MeasureTheory Set

namespace Caustics

/-- The integrand after the substitution. -/
noncomputable def gmW (m v : ℝ) : ℝ := v ^ (3 * m) * exp (-m * v ^ (3 : ℝ))

theorem integrableOn_gmW {m : ℝ} (hm : 0 < m) : IntegrableOn (gmW m) (Ioi 0) :=
  integrableOn_rpow_mul_exp_neg_mul_rpow (by linarith) (by norm_num) hm

theorem gmW_pos {m v : ℝ} (hv : 0 < v) : 0 < gmW m v := mul_pos (rpow_pos_of_pos hv _) (exp_pos _)

/-- The whole integral. -/
theorem integral_gmW {m : ℝ} (hm : 0 < m) :
    Gamma (m + 1 / 3) = 3 * m ^ (m + 1 / 3) * ∫ v in Ioi (0 : ℝ), gmW m v := by
  have h := integral_rpow_mul_exp_neg_mul_rpow (p := 3) (q := 3 * m) (b := m) (by norm_num) (by linarith) hm
  have e : ∫ v in Ioi (0 : ℝ), gmW m v = m ^ (-(m + 1 / 3)) * (1 / 3) * Gamma (m + 1 / 3) := by
    rw [show m + 1 / 3 = (3 * m + 1) / 3 by ring, show -((3 * m + 1) / 3) = -(3 * m + 1) / 3 by ring, ← h]
    rfl
  rw [e, rpow_neg hm.le]
  have : 0 < m ^ (m + 1 / 3) := rpow_pos_of_pos hm _
  field_simp

/-- The lower part. -/
theorem lowerGamma_gmW {m : ℝ} (hm : 0 < m) :
    lowerGamma (m + 1 / 3) m = 3 * m ^ (m + 1 / 3) * ∫ v in Ioc (0 : ℝ) 1, gmW m v := by
  have hd : ∀ v ∈ Ioo (0 : ℝ) 1, HasDerivAt (fun v => lowerGamma (m + 1 / 3) (m * v ^ 3))
      (3 * m ^ (m + 1 / 3) * gmW m v) v := by
    intro v hv
    have hv0 := hv.1
    have h1 : HasDerivAt (fun v : ℝ => m * v ^ 3) (m * (3 * v ^ 2)) v := by
      simpa using (hasDerivAt_pow 3 v).const_mul m
    have h2 := (hasDerivAt_lowerGamma (a := m + 1 / 3) (x := m * v ^ 3) (by linarith) (by positivity)).comp v h1
    refine h2.congr_deriv ?_
    have e1 : (m * v ^ 3) ^ (m + 1 / 3 - 1) = m ^ (m + 1 / 3) / m * (v ^ (3 * m) / v ^ 2) := by
      rw [mul_rpow hm.le (by positivity), rpow_sub hm, rpow_one, ← rpow_natCast v 3, ← rpow_mul hv0.le,
        show ((3 : ℕ) : ℝ) * (m + 1 / 3 - 1) = 3 * m - 2 by push_cast; ring, rpow_sub hv0]
      norm_num
    have e2 : v ^ (3 : ℝ) = v ^ 3 := by norm_cast
    rw [e1, gmW, e2, neg_mul]
    have := hv0.ne'
    field_simp
  have hc : ContinuousOn (fun v => lowerGamma (m + 1 / 3) (m * v ^ 3)) (Icc 0 1) :=
    (continuousOn_lowerGamma (by linarith)).comp (by fun_prop) fun v hv => by
      have := hv.1
      exact (show 0 ≤ m * v ^ 3 by positivity)
  have hi : IntervalIntegrable (fun v => 3 * m ^ (m + 1 / 3) * gmW m v) volume 0 1 := by
    rw [intervalIntegrable_iff_integrableOn_Ioc_of_le zero_le_one]
    exact ((integrableOn_gmW hm).mono_set Ioc_subset_Ioi_self).const_mul _
  have h := intervalIntegral.integral_eq_sub_of_hasDerivAt_of_le zero_le_one hc hd hi
  rw [intervalIntegral.integral_of_le zero_le_one, integral_const_mul] at h
  rw [h]
  simp [lowerGamma_zero]

/-- `artanh t - t - t ^ 3 / 3`, written with the logarithm. -/
noncomputable def gmX (t : ℝ) : ℝ := (log (1 + t) - log (1 - t)) / 2 - t - t ^ 3 / 3

theorem gmX_deriv {t : ℝ} (h : t ∈ Ioo (-1 : ℝ) 1) : HasDerivAt gmX (t ^ 4 / (1 - t ^ 2)) t := by
  have h1 : 0 < 1 + t := by linarith [h.1]
  have h2 : 0 < 1 - t := by linarith [h.2]
  have d1 := ((hasDerivAt_id t).const_add 1).log h1.ne'
  have d2 := ((hasDerivAt_id t).const_sub 1).log h2.ne'
  have d3 := (hasDerivAt_pow 3 t).div_const 3
  refine ((((d1.fun_sub d2).div_const 2).fun_sub (hasDerivAt_id t)).fun_sub d3).congr_deriv ?_
  have : 1 - t ^ 2 = (1 + t) * (1 - t) := by ring
  rw [this]
  simp only [id]
  norm_num
  field_simp
  ring

theorem gmX_nonneg {t : ℝ} (h0 : 0 ≤ t) (h1 : t < 1) : 0 ≤ gmX t := by
  have hm : MonotoneOn gmX (Ico 0 1) := by
    refine monotoneOn_of_deriv_nonneg (convex_Ico 0 1) ?_ ?_ ?_
    · intro x hx
      exact (gmX_deriv ⟨by linarith [hx.1], hx.2⟩).continuousAt.continuousWithinAt
    · rw [interior_Ico]
      intro x hx
      exact (gmX_deriv ⟨by linarith [hx.1], hx.2⟩).differentiableAt.differentiableWithinAt
    · rw [interior_Ico]
      intro x hx
      rw [(gmX_deriv ⟨by linarith [hx.1], hx.2⟩).deriv]
      have : 0 < 1 - x ^ 2 := by nlinarith [hx.1, hx.2]
      positivity
  have := hm ⟨le_rfl, one_pos⟩ ⟨h0, h1⟩ h0
  simpa [gmX] using this

theorem gmX_le {t : ℝ} (h0 : 0 ≤ t) (h1 : t ^ 2 ≤ 7 / 10) : gmX t ≤ 2 / 3 * t ^ 5 := by
  have ht : t < 1 := by nlinarith
  have hm : MonotoneOn (fun x => 2 / 3 * x ^ 5 - gmX x) (Icc 0 t) := by
    have hd : ∀ x ∈ Icc 0 t, HasDerivAt (fun x => 2 / 3 * x ^ 5 - gmX x) (2 / 3 * (5 * x ^ 4) - x ^ 4 / (1 - x ^ 2)) x := by
      intro x hx
      have := (hasDerivAt_pow 5 x).const_mul (2 / 3 : ℝ)
      simpa using this.fun_sub (gmX_deriv ⟨by linarith [hx.1], by linarith [hx.2]⟩)
    refine monotoneOn_of_deriv_nonneg (convex_Icc 0 t) ?_ ?_ ?_
    · exact fun x hx => (hd x hx).continuousAt.continuousWithinAt
    · rw [interior_Icc]
      exact fun x hx => (hd x ⟨hx.1.le, hx.2.le⟩).differentiableAt.differentiableWithinAt
    · rw [interior_Icc]
      intro x hx
      rw [(hd x ⟨hx.1.le, hx.2.le⟩).deriv]
      have hx2 : x ^ 2 ≤ 7 / 10 := le_trans (pow_le_pow_left₀ hx.1.le hx.2.le 2) h1
      have h3 : 0 < 1 - x ^ 2 := by linarith
      rw [sub_nonneg, div_le_iff₀ h3]
      have : 0 ≤ x ^ 4 := by positivity
      nlinarith
  have := hm ⟨le_rfl, h0⟩ ⟨h0, le_rfl⟩ h0
  simp [gmX] at this ⊢
  linarith

/-- The quotient of the values on the two sides. -/
theorem gmW_pair {m t : ℝ} (h0 : 0 ≤ t) (h1 : t < 1) : gmW m (1 - t) = gmW m (1 + t) * exp (-(6 * m * gmX t)) := by
  have p1 : 0 < 1 + t := by linarith
  have p2 : 0 < 1 - t := by linarith
  have e : ∀ v : ℝ, v ^ (3 : ℝ) = v ^ 3 := fun v => by norm_cast
  rw [gmW, gmW, rpow_def_of_pos p1, rpow_def_of_pos p2, e, e, ← exp_add, ← exp_add, ← exp_add, gmX]
  congr 1
  ring

theorem log_le_cubic {t : ℝ} (h : 0 ≤ t) : log (1 + t) ≤ t - t ^ 2 / 2 + t ^ 3 / 3 := by
  have hm : MonotoneOn (fun x => x - x ^ 2 / 2 + x ^ 3 / 3 - log (1 + x)) (Ici 0) := by
    have hd : ∀ x ∈ Ici (0 : ℝ), HasDerivAt (fun x : ℝ => x - x ^ 2 / 2 + x ^ 3 / 3 - log (1 + x))
        (1 - x + x ^ 2 - 1 / (1 + x)) x := by
      intro x hx
      have hx : 0 ≤ x := hx
      have d1 := ((hasDerivAt_id x).const_add 1).log (by simp only [id]; positivity)
      refine ((((hasDerivAt_id x).fun_sub ((hasDerivAt_pow 2 x).div_const 2)).fun_add
        ((hasDerivAt_pow 3 x).div_const 3)).fun_sub d1).congr_deriv ?_
      norm_num
    refine monotoneOn_of_deriv_nonneg (convex_Ici 0) (fun x hx => (hd x hx).continuousAt.continuousWithinAt) ?_ ?_
    · rw [interior_Ici]
      exact fun x hx => (hd x (mem_Ici.2 (le_of_lt (mem_Ioi.1 hx)))).differentiableAt.differentiableWithinAt
    · rw [interior_Ici]
      intro x hx
      have hx : 0 < x := hx
      rw [(hd x hx.le).deriv, sub_nonneg, div_le_iff₀ (by positivity)]
      have : 0 < x ^ 3 := by positivity
      nlinarith
  have := hm (mem_Ici.2 le_rfl) (mem_Ici.2 h) h
  simp at this
  linarith

theorem log_ge_quad {t : ℝ} (h : 0 ≤ t) : t - t ^ 2 / 2 ≤ log (1 + t) := by
  have hm : MonotoneOn (fun x => log (1 + x) - (x - x ^ 2 / 2)) (Ici 0) := by
    have hd : ∀ x ∈ Ici (0 : ℝ), HasDerivAt (fun x : ℝ => log (1 + x) - (x - x ^ 2 / 2))
        (1 / (1 + x) - (1 - x)) x := by
      intro x hx
      have hx : 0 ≤ x := hx
      have d1 := ((hasDerivAt_id x).const_add 1).log (by simp only [id]; positivity)
      refine (d1.fun_sub ((hasDerivAt_id x).fun_sub ((hasDerivAt_pow 2 x).div_const 2))).congr_deriv ?_
      norm_num
    refine monotoneOn_of_deriv_nonneg (convex_Ici 0) (fun x hx => (hd x hx).continuousAt.continuousWithinAt) ?_ ?_
    · rw [interior_Ici]
      exact fun x hx => (hd x (mem_Ici.2 (le_of_lt (mem_Ioi.1 hx)))).differentiableAt.differentiableWithinAt
    · rw [interior_Ici]
      intro x hx
      have hx : 0 < x := hx
      rw [(hd x hx.le).deriv, sub_nonneg, le_div_iff₀ (by positivity)]
      nlinarith
  have := hm (mem_Ici.2 le_rfl) (mem_Ici.2 h) h
  simp at this
  linarith

theorem gmW_exp {m t : ℝ} (h : 0 ≤ t) :
    gmW m (1 + t) = exp (-m) * exp (3 * m * (log (1 + t) - t - t ^ 2 - t ^ 3 / 3)) := by
  have p1 : 0 < 1 + t := by linarith
  have e : (1 + t) ^ (3 : ℝ) = (1 + t) ^ 3 := by norm_cast
  rw [gmW, rpow_def_of_pos p1, e, ← exp_add, ← exp_add]
  congr 1
  ring

theorem gmW_le {m t : ℝ} (hm : 0 < m) (h : 0 ≤ t) : gmW m (1 + t) ≤ exp (-m) * exp (-(9 / 2 * m) * t ^ 2) := by
  rw [gmW_exp h]
  have := log_le_cubic h
  have h2 : 3 * m * (log (1 + t) - t - t ^ 2 - t ^ 3 / 3) ≤ -(9 / 2 * m) * t ^ 2 := by nlinarith
  exact mul_le_mul_of_nonneg_left (exp_le_exp.2 h2) (exp_pos _).le

theorem gmW_ge {m t : ℝ} (hm : 0 < m) (h : 0 ≤ t) :
    exp (-m) * (exp (-(9 / 2 * m) * t ^ 2) - m * (t ^ (3 : ℝ) * exp (-(9 / 2 * m) * t ^ 2))) ≤ gmW m (1 + t) := by
  rw [gmW_exp h]
  have h1 := log_ge_quad h
  have e : t ^ (3 : ℝ) = t ^ 3 := by norm_cast
  have h2 : exp (-(9 / 2 * m) * t ^ 2) * (1 - m * t ^ 3) ≤ exp (-(9 / 2 * m) * t ^ 2) * exp (-(m * t ^ 3)) := by
    gcongr
    linarith [add_one_le_exp (-(m * t ^ 3))]
  have h3 : exp (-(9 / 2 * m) * t ^ 2) * exp (-(m * t ^ 3)) ≤ exp (3 * m * (log (1 + t) - t - t ^ 2 - t ^ 3 / 3)) := by
    rw [← exp_add]
    gcongr
    nlinarith
  rw [e]
  gcongr
  linarith

theorem integral_pow_gauss {b : ℝ} (hb : 0 < b) :
    (∫ t in Ioi (0 : ℝ), t ^ (5 : ℝ) * exp (-b * t ^ 2) = 1 / b ^ 3) ∧
    ∫ t in Ioi (0 : ℝ), t ^ (3 : ℝ) * exp (-b * t ^ 2) = 1 / (2 * b ^ 2) := by
  have h5 := integral_rpow_mul_exp_neg_mul_rpow (p := 2) (q := 5) (b := b) (by norm_num) (by norm_num) hb
  have h3 := integral_rpow_mul_exp_neg_mul_rpow (p := 2) (q := 3) (b := b) (by norm_num) (by norm_num) hb
  have g2 : Gamma 2 = 1 := by
    rw [show (2 : ℝ) = 1 + 1 by norm_num, Gamma_add_one (by norm_num), Gamma_one, mul_one]
  have g3 : Gamma 3 = 2 := by
    rw [show (3 : ℝ) = 2 + 1 by norm_num, Gamma_add_one (by norm_num), g2, mul_one]
  have e3 : b ^ (-3 : ℝ) = 1 / b ^ 3 := by rw [rpow_neg hb.le, one_div]; norm_cast
  have e2 : b ^ (-2 : ℝ) = 1 / b ^ 2 := by rw [rpow_neg hb.le, one_div]; norm_cast
  simp only [rpow_two] at h5 h3
  constructor
  · rw [h5, show -((5 : ℝ) + 1) / 2 = -3 by norm_num, show ((5 : ℝ) + 1) / 2 = 3 by norm_num, g3, e3]
    ring
  · rw [h3, show -((3 : ℝ) + 1) / 2 = -2 by norm_num, show ((3 : ℝ) + 1) / 2 = 2 by norm_num, g2, e2]
    field_simp

/-- The integral above `1`, and the integral below `1`, seen from `1`. -/
theorem gmW_halves (m : ℝ) :
    (∫ v in Ioi (1 : ℝ), gmW m v = ∫ t in Ioi (0 : ℝ), gmW m (1 + t)) ∧
    ∫ v in Ioc (0 : ℝ) 1, gmW m v = ∫ t in Ioc (0 : ℝ) 1, gmW m (1 - t) := by
  constructor
  · have := (measurePreserving_add_left (volume : Measure ℝ) 1).setIntegral_preimage_emb
      (measurableEmbedding_addLeft 1) (gmW m) (Ioi 1)
    rw [← this]
    congr 2
    simp
  · have := intervalIntegral.integral_comp_sub_left (a := 0) (b := 1) (gmW m) 1
    rw [intervalIntegral.integral_of_le zero_le_one] at this
    rw [this, ← intervalIntegral.integral_of_le zero_le_one]
    simp

theorem integrableOn_gmW_add {m : ℝ} (hm : 0 < m) : IntegrableOn (fun t => gmW m (1 + t)) (Ioi 0) := by
  have h := ((measurePreserving_add_left (volume : Measure ℝ) 1).integrableOn_comp_preimage
      (measurableEmbedding_addLeft 1) (f := gmW m) (s := Ioi 1)).2
      ((integrableOn_gmW hm).mono_set (Ioi_subset_Ioi zero_le_one))
  have e : (fun x : ℝ => 1 + x) ⁻¹' Ioi 1 = Ioi 0 := by ext; simp
  rw [e] at h
  exact h

theorem integrableOn_gmW_sub {m : ℝ} (hm : 0 < m) : IntegrableOn (fun t => gmW m (1 - t)) (Ioc 0 1) := by
  have h : IntervalIntegrable (gmW m) volume 0 1 := by
    rw [intervalIntegrable_iff_integrableOn_Ioc_of_le zero_le_one]
    exact (integrableOn_gmW hm).mono_set Ioc_subset_Ioi_self
  have h2 := (h.comp_sub_left 1).symm
  simp only [sub_zero, sub_self] at h2
  rwa [intervalIntegrable_iff_integrableOn_Ioc_of_le zero_le_one] at h2

theorem gmW_zero {m : ℝ} (hm : 0 < m) : gmW m 0 = 0 := by
  rw [gmW, zero_rpow (by positivity), zero_mul]

/-- The part below `1` is the smaller one, but not by much. -/
theorem gm_balance {m : ℝ} (hm : 2 / 3 ≤ m) :
    let A := ∫ v in Ioc (0 : ℝ) 1, gmW m v
    let B := ∫ v in Ioi (1 : ℝ), gmW m v
    A ≤ B ∧ B - A ≤ exp (-m) * (32 / (729 * m ^ 2)) ∧ exp (-m) * (√(2 * π / (9 * m)) / 2 - 2 / (81 * m)) ≤ B := by
  intro A B
  have hm0 : 0 < m := by linarith
  have iF := integrableOn_gmW_add hm0
  have iF1 : IntegrableOn (fun t => gmW m (1 + t)) (Ioc 0 1) := iF.mono_set Ioc_subset_Ioi_self
  have iF2 : IntegrableOn (fun t => gmW m (1 + t)) (Ioi 1) := iF.mono_set (Ioi_subset_Ioi zero_le_one)
  have iG := integrableOn_gmW_sub hm0
  have hb : (0 : ℝ) < 9 / 2 * m := by positivity
  have i5 := integrableOn_rpow_mul_exp_neg_mul_sq hb (s := 5) (by norm_num)
  have i3 := integrableOn_rpow_mul_exp_neg_mul_sq hb (s := 3) (by norm_num)
  have i0 : IntegrableOn (fun t : ℝ => exp (-(9 / 2 * m) * t ^ 2)) (Ioi 0) := (integrable_exp_neg_mul_sq hb).integrableOn
  have hA : A = ∫ t in Ioc (0 : ℝ) 1, gmW m (1 - t) := (gmW_halves m).2
  have hB : B = ∫ t in Ioi (0 : ℝ), gmW m (1 + t) := (gmW_halves m).1
  have hU : Ioc (0 : ℝ) 1 ∪ Ioi 1 = Ioi 0 := Ioc_union_Ioi_eq_Ioi zero_le_one
  have hdis : Disjoint (Ioc (0 : ℝ) 1) (Ioi 1) := by
    rw [Set.disjoint_left]
    intro x hx hx'
    exact absurd hx.2 (not_le.2 hx')
  have hsplit : B = (∫ t in Ioc (0 : ℝ) 1, gmW m (1 + t)) + ∫ t in Ioi (1 : ℝ), gmW m (1 + t) := by
    rw [hB, ← hU, setIntegral_union hdis measurableSet_Ioi iF1 iF2]
  have hGF : ∀ t ∈ Ioc (0 : ℝ) 1, gmW m (1 - t) ≤ gmW m (1 + t) := by
    intro t ht
    rcases ht.2.lt_or_eq with h | h
    · rw [gmW_pair ht.1.le h]
      have h1 := gmW_pos (m := m) (v := 1 + t) (by linarith [ht.1])
      have h2 : exp (-(6 * m * gmX t)) ≤ 1 := by
        rw [exp_le_one_iff]
        have := gmX_nonneg ht.1.le h
        have : 0 ≤ 6 * m * gmX t := by positivity
        linarith
      nlinarith
    · rw [h, sub_self, gmW_zero hm0]
      exact (gmW_pos (by norm_num)).le
  refine ⟨?_, ?_, ?_⟩
  · rw [hA, hsplit]
    have h1 := setIntegral_mono_on iG iF1 measurableSet_Ioc hGF
    have h2 : 0 ≤ ∫ t in Ioi (1 : ℝ), gmW m (1 + t) :=
      setIntegral_nonneg measurableSet_Ioi fun t ht => (gmW_pos (by linarith [mem_Ioi.1 ht])).le
    linarith
  · let H : ℝ → ℝ := fun t => 4 * m * exp (-m) * (t ^ (5 : ℝ) * exp (-(9 / 2 * m) * t ^ 2))
    have iH : IntegrableOn H (Ioi 0) := i5.const_mul _
    have hI : ∫ t in Ioi (0 : ℝ), H t = exp (-m) * (32 / (729 * m ^ 2)) := by
      simp only [H]
      rw [integral_const_mul, (integral_pow_gauss hb).1]
      field_simp
      norm_num
    have hFH : ∀ t, 0 < t → gmW m (1 + t) * (4 * m * t ^ 5) ≤ H t := by
      intro t ht
      have e : t ^ (5 : ℝ) = t ^ 5 := by norm_cast
      have := mul_le_mul_of_nonneg_right (gmW_le hm0 ht.le) (by positivity : 0 ≤ 4 * m * t ^ 5)
      simp only [H, e]
      linarith
    have hbig : ∀ t, 0 < t → 7 / 10 ≤ t ^ 2 → gmW m (1 + t) ≤ H t := by
      intro t ht h7
      refine le_trans ?_ (hFH t ht)
      have hp := gmW_pos (m := m) (v := 1 + t) (by linarith)
      have h83 : 83 / 100 ≤ t := by nlinarith
      have h4 : (49 / 100 : ℝ) ≤ t ^ 4 := by nlinarith
      have h5 : (3 / 8 : ℝ) ≤ t ^ 5 := by nlinarith
      have h6 : 1 ≤ 4 * m * t ^ 5 := by nlinarith
      nlinarith
    have h1 : (∫ t in Ioc (0 : ℝ) 1, gmW m (1 + t)) - ∫ t in Ioc (0 : ℝ) 1, gmW m (1 - t) ≤ ∫ t in Ioc (0 : ℝ) 1, H t := by
      rw [← integral_sub iF1 iG]
      refine setIntegral_mono_on (iF1.sub iG) (iH.mono_set Ioc_subset_Ioi_self) measurableSet_Ioc ?_
      intro t ht
      have hG : 0 ≤ gmW m (1 - t) := by
        rcases ht.2.lt_or_eq with h | h
        · exact (gmW_pos (by linarith)).le
        · rw [h, sub_self, gmW_zero hm0]
      rcases le_or_gt (t ^ 2) (7 / 10) with h7 | h7
      · refine le_trans ?_ (hFH t ht.1)
        have h1 : t < 1 := by nlinarith [ht.1]
        rw [gmW_pair ht.1.le h1]
        have hp := gmW_pos (m := m) (v := 1 + t) (by linarith [ht.1])
        have h2 := add_one_le_exp (-(6 * m * gmX t))
        have h3 := gmX_le ht.1.le h7
        have h4 : 1 - exp (-(6 * m * gmX t)) ≤ 4 * m * t ^ 5 := by nlinarith
        nlinarith
      · exact le_trans (by linarith) (hbig t ht.1 h7.le)
    have h2 : ∫ t in Ioi (1 : ℝ), gmW m (1 + t) ≤ ∫ t in Ioi (1 : ℝ), H t := by
      refine setIntegral_mono_on iF2 (iH.mono_set (Ioi_subset_Ioi zero_le_one)) measurableSet_Ioi ?_
      intro t ht
      have ht : 1 < t := ht
      exact hbig t (by linarith) (by nlinarith)
    have h3 : ∫ t in Ioi (0 : ℝ), H t = (∫ t in Ioc (0 : ℝ) 1, H t) + ∫ t in Ioi (1 : ℝ), H t := by
      rw [← hU, setIntegral_union hdis measurableSet_Ioi (iH.mono_set Ioc_subset_Ioi_self)
        (iH.mono_set (Ioi_subset_Ioi zero_le_one))]
    rw [← hI, h3, hA, hsplit]
    linarith
  · have hI : ∫ t in Ioi (0 : ℝ), exp (-m) * (exp (-(9 / 2 * m) * t ^ 2) - m * (t ^ (3 : ℝ) * exp (-(9 / 2 * m) * t ^ 2)))
        = exp (-m) * (√(2 * π / (9 * m)) / 2 - 2 / (81 * m)) := by
      rw [integral_const_mul, integral_sub i0 (i3.const_mul m), integral_const_mul, (integral_pow_gauss hb).2,
        integral_gaussian_Ioi]
      congr 2
      · congr 2
        field_simp
      · field_simp
        norm_num
    rw [← hI, hB]
    exact setIntegral_mono_on ((i0.sub (i3.const_mul m)).const_mul _) iF measurableSet_Ioi fun t ht => gmW_ge hm0 (le_of_lt ht)

/-- The fraction of the Gamma integral below `a - 1/3` is just below one half. -/
theorem lowerGamma_third {a : ℝ} (ha : 1 ≤ a) :
    (1 / 2 - 6 / (100 * a)) * Gamma a ≤ lowerGamma a (a - 1 / 3) ∧ lowerGamma a (a - 1 / 3) ≤ Gamma a / 2 := by
  obtain ⟨m, rfl⟩ : ∃ m, a = m + 1 / 3 := ⟨a - 1 / 3, by ring⟩
  have hm : 2 / 3 ≤ m := by linarith
  have hm0 : 0 < m := by linarith
  obtain ⟨h1, h2, h3⟩ := gm_balance hm
  rw [add_sub_cancel_right, lowerGamma_gmW hm0, integral_gmW hm0]
  have hT : ∫ v in Ioi (0 : ℝ), gmW m v = (∫ v in Ioc (0 : ℝ) 1, gmW m v) + ∫ v in Ioi (1 : ℝ), gmW m v := by
    rw [← Ioc_union_Ioi_eq_Ioi (zero_le_one (α := ℝ)), setIntegral_union _ measurableSet_Ioi
      ((integrableOn_gmW hm0).mono_set Ioc_subset_Ioi_self) ((integrableOn_gmW hm0).mono_set (Ioi_subset_Ioi zero_le_one))]
    rw [Set.disjoint_left]
    intro x hx hx'
    exact absurd hx.2 (not_le.2 hx')
  rw [hT]
  generalize (∫ v in Ioc (0 : ℝ) 1, gmW m v) = A at *
  generalize (∫ v in Ioi (1 : ℝ), gmW m v) = B at *
  have hC : 0 < 3 * m ^ (m + 1 / 3) := by have := rpow_pos_of_pos hm0 (m + 1 / 3); positivity
  generalize 3 * m ^ (m + 1 / 3) = C at *
  have hE := exp_pos (-m)
  generalize exp (-m) = E at *
  refine ⟨?_, by nlinarith⟩
  have key : 16 / (729 * m ^ 2) ≤ 6 / (100 * (m + 1 / 3)) * (√(2 * π / (9 * m)) - 4 / (81 * m) - 32 / (729 * m ^ 2)) := by
    obtain ⟨σ, hσ, rfl⟩ : ∃ σ : ℝ, 0 < σ ∧ m = σ ^ 2 := ⟨√m, sqrt_pos.2 hm0, (sq_sqrt hm0.le).symm⟩
    have hr : 8355 / 10000 / σ ≤ √(2 * π / (9 * σ ^ 2)) := by
      apply le_sqrt_of_sq_le
      have := pi_gt_d4
      rw [div_pow, div_le_div_iff₀ (by positivity) (by positivity)]
      nlinarith [sq_nonneg σ]
    have h8 : 8164 / 10000 ≤ σ := by nlinarith
    refine le_trans ?_ (mul_le_mul_of_nonneg_left (sub_le_sub_right (sub_le_sub_right hr _) _) (by positivity))
    have e : 6 / (100 * (σ ^ 2 + 1 / 3)) * (8355 / 10000 / σ - 4 / (81 * σ ^ 2) - 32 / (729 * (σ ^ 2) ^ 2))
        = 6 / 100 * (8355 / 10000 * σ ^ 3 - 4 / 81 * σ ^ 2 - 32 / 729) / ((σ ^ 2 + 1 / 3) * σ ^ 4) := by
      field_simp
    rw [e, div_le_div_iff₀ (by positivity) (by positivity)]
    have h9 : 16 * (σ ^ 2 + 1 / 3) ≤ 6 / 100 * (8355 / 10000 * σ ^ 3 - 4 / 81 * σ ^ 2 - 32 / 729) * 729 := by
      nlinarith [mul_nonneg (sub_nonneg.2 h8) (sq_nonneg σ)]
    have h10 : 0 < σ ^ 4 := by positivity
    nlinarith
  have hc : 0 < 6 / (100 * (m + 1 / 3)) := by positivity
  generalize 6 / (100 * (m + 1 / 3)) = c at *
  generalize √(2 * π / (9 * m)) = w at *
  have e1 : 16 / (729 * m ^ 2) = 32 / (729 * m ^ 2) / 2 := by ring
  have e2 : 4 / (81 * m) = 2 * (2 / (81 * m)) := by ring
  rw [e1, e2] at key
  generalize 32 / (729 * m ^ 2) = η at *
  generalize 2 / (81 * m) = z at *
  have k1 : E * (η / 2) ≤ c * (E * (w - 2 * z - η)) := by nlinarith
  have k2 : E * (w - 2 * z - η) ≤ A + B := by nlinarith
  have k3 : (B - A) / 2 ≤ c * (A + B) := by nlinarith
  have k4 : (1 / 2 - c) * (A + B) ≤ A := by nlinarith
  nlinarith

/-- The integrand never exceeds the integral. -/
theorem gamma_integrand_le {a u : ℝ} (ha : 1 ≤ a) (hu : 0 < u) : u ^ (a - 1) * exp (-u) ≤ Gamma a := by
  rw [Gamma_eq_integral (by linarith)]
  have hi := GammaIntegral_convergent (s := a) (by linarith)
  have e1 : ∫ x in Ioi u, u ^ (a - 1) * exp (-x) = u ^ (a - 1) * exp (-u) := by
    rw [integral_const_mul, integral_exp_neg_Ioi]
  rw [← e1]
  have hi2 : IntegrableOn (fun x => exp (-x) * x ^ (a - 1)) (Ioi u) := hi.mono_set (Ioi_subset_Ioi hu.le)
  refine le_trans (setIntegral_mono_on ((integrableOn_exp_neg_Ioi u).const_mul _) hi2 measurableSet_Ioi ?_)
    (setIntegral_mono_set hi ?_ (Ioi_subset_Ioi hu.le).eventuallyLE)
  · intro x hx
    have hx : u < x := hx
    have := rpow_le_rpow hu.le hx.le (by linarith : 0 ≤ a - 1)
    have := exp_pos (-x)
    nlinarith
  · filter_upwards [ae_restrict_mem measurableSet_Ioi] with x hx
    have hx : 0 < x := hx
    exact mul_nonneg (exp_pos _).le (rpow_nonneg hx.le _)

theorem lowerGamma_step {a x y : ℝ} (ha : 1 ≤ a) (hx : 0 ≤ x) (hxy : x ≤ y) :
    lowerGamma a x ≤ lowerGamma a y ∧ lowerGamma a y ≤ lowerGamma a x + (y - x) * Gamma a := by
  have ha0 : 0 < a := by linarith
  have h : lowerGamma a y = lowerGamma a x + ∫ u in x..y, u ^ (a - 1) * exp (-u) :=
    (intervalIntegral.integral_add_adjacent_intervals (intervalIntegrable_lowerGamma ha0 0 x le_rfl hx)
      (intervalIntegrable_lowerGamma ha0 x y hx (hx.trans hxy))).symm
  have h1 : 0 ≤ ∫ u in x..y, u ^ (a - 1) * exp (-u) :=
    intervalIntegral.integral_nonneg hxy fun u hu => mul_nonneg (rpow_nonneg (hx.trans hu.1) _) (exp_pos _).le
  have h2 : ∫ u in x..y, u ^ (a - 1) * exp (-u) ≤ ∫ _ in x..y, Gamma a :=
    intervalIntegral.integral_mono_on_of_le_Ioo hxy (intervalIntegrable_lowerGamma ha0 x y hx (hx.trans hxy))
      intervalIntegrable_const fun u hu => gamma_integrand_le ha (hx.trans_lt hu.1)
  rw [intervalIntegral.integral_const, smul_eq_mul] at h2
  constructor <;> linarith

end Caustics
