import Verif.Props.ParityLenses
import Verif.Props.RangeEnds

/-!
C143, continued: the elliptical power law. With a slope below isothermal its deflection is continuous but has a kink at
the centre, with a slope above it grows without bound. All theorems hold for any number of terms of its series.
-/

namespace Caustics

open ComplexConjugate FieldLens Filter Topology PlaneMember MeasureTheory Real

/-- The deflection of an EPL lens, as a function on the complex plane. -/
noncomputable def eplMap (x0 y0 q phi Rein t : ℝ) (N : ℕ) (w : ℂ) : ℂ :=
  ⟨cos phi, sin phi⟩ * eplField q Rein t N (conj (⟨cos phi, sin phi⟩ : ℂ) * (w - ⟨x0, y0⟩)).re
    (conj (⟨cos phi, sin phi⟩ : ℂ) * (w - ⟨x0, y0⟩)).im

/-- `EPL` as a member of a plane, with the softening of the class. -/
noncomputable def shallowEpl (z x0 y0 q phi Rein t s : ℝ) (N : ℕ) (cs : Option ℕ) : PlaneMember :=
  .other ⟨z, eplClassDeflectionOpt x0 y0 q phi Rein t N cs s,
    fun x y => (eplPotential x0 y0 q phi Rein t N cs x y).toOption⟩ (eplMap x0 y0 q phi Rein t N) {(x0, y0)}

theorem eplMap_value (x0 y0 q phi Rein t s : ℝ) (N : ℕ) (cs : Option ℕ) (hN : 1 ≤ N) (hcs : ChunkOk N cs) (x y : ℝ) :
    eplClassDeflectionOpt x0 y0 q phi Rein t N cs s x y =
      some ((eplMap x0 y0 q phi Rein t N ⟨x, y⟩).re, (eplMap x0 y0 q phi Rein t N ⟨x, y⟩).im) := by
  have e1 : (conj (⟨cos phi, sin phi⟩ : ℂ) * (⟨x, y⟩ - ⟨x0, y0⟩)).re = (x - x0) * cos phi + (y - y0) * sin phi := by
    rw [Complex.mul_re, Complex.conj_re, Complex.conj_im]
    simp only [Complex.sub_re, Complex.sub_im]
    ring
  have e2 : (conj (⟨cos phi, sin phi⟩ : ℂ) * (⟨x, y⟩ - ⟨x0, y0⟩)).im = (y - y0) * cos phi - (x - x0) * sin phi := by
    rw [Complex.mul_im, Complex.conj_re, Complex.conj_im]
    simp only [Complex.sub_re, Complex.sub_im]
    ring
  rw [eplClassDeflectionOpt, eplDeflection_ok x0 y0 q phi Rein t N cs hN hcs, eplMap, e1, e2]
  simp only [Except.toOption, derotate, Complex.mul_re, Complex.mul_im]
  congr 2 <;> ring

theorem eplZ_le {q : ℝ} (hq : 0 < q) (hq1 : q ≤ 1) (x y : ℝ) :
    q * ‖(⟨x, y⟩ : ℂ)‖ ≤ ‖eplZ q x y‖ ∧ ‖eplZ q x y‖ ≤ ‖(⟨x, y⟩ : ℂ)‖ := by
  have hq2 : q ^ 2 ≤ 1 := pow_le_one₀ hq.le hq1
  rw [norm_eplZ, Complex.norm_def, Complex.normSq_apply]
  simp only
  constructor
  · have := mul_le_mul_of_nonneg_right hq2 (sq_nonneg y)
    rw [← sqrt_sq hq.le, ← sqrt_mul (sq_nonneg q), sqrt_sq hq.le]
    apply sqrt_le_sqrt
    nlinarith
  · have := mul_le_mul_of_nonneg_right hq2 (sq_nonneg x)
    apply sqrt_le_sqrt
    linarith

theorem eplField_size {q Rein t : ℝ} (N : ℕ) (hq : 0 < q) (hq1 : q ≤ 1) (hR : 0 ≤ Rein) (h0 : 0 < t) (h2 : t < 2) {x y : ℝ}
    (h : x ≠ 0 ∨ y ≠ 0) : ‖eplField q Rein t N x y‖ ≤ (Rein * √q) ^ t / q * ‖eplZ q x y‖ ^ (1 - t) := by
  have hz := norm_eplZ q x y
  have hz0 : 0 < ‖eplZ q x y‖ := norm_pos_iff.2 (eplZ_ne q hq h).1
  have hf0 : 0 ≤ (1 - q) / (1 + q) := div_nonneg (by linarith) (by linarith)
  have hf1 : (1 - q) / (1 + q) < 1 := by rw [div_lt_one (by linarith)]; linarith
  have hs := eplSum_norm h0 h2 hf0 hf1 (eplZ q x y) _ (norm_eplPhi q hq hq1 h).le N
  rw [eplField, norm_mul, Complex.norm_real, Real.norm_of_nonneg (by positivity), ← hz]
  calc _ ≤ 2 / (1 + q) * (Rein * √q / ‖eplZ q x y‖) ^ t * (‖eplZ q x y‖ / (1 - (1 - q) / (1 + q))) :=
        mul_le_mul_of_nonneg_left hs (by positivity)
    _ = (Rein * √q) ^ t / q * ‖eplZ q x y‖ ^ (1 - t) := by
        rw [div_rpow (by positivity) hz0.le, rpow_sub hz0, rpow_one,
          show 1 - (1 - q) / (1 + q) = 2 * q / (1 + q) by field_simp; ring]
        field_simp

theorem eplField_bound {q Rein t : ℝ} (N : ℕ) (hq : 0 < q) (hq1 : q ≤ 1) (hR : 0 ≤ Rein) (h0 : 0 < t) (h1 : t < 1) (x y : ℝ) :
    ‖eplField q Rein t N x y‖ ≤ (Rein * √q) ^ t / q * ‖(⟨x, y⟩ : ℂ)‖ ^ (1 - t) := by
  by_cases h : x ≠ 0 ∨ y ≠ 0
  · exact (eplField_size N hq hq1 hR h0 (by linarith) h).trans (mul_le_mul_of_nonneg_left
      (rpow_le_rpow (norm_nonneg _) (eplZ_le hq hq1 x y).2 (by linarith)) (by positivity))
  · push Not at h
    obtain ⟨rfl, rfl⟩ := h
    have : eplField q Rein t N 0 0 = 0 := by simp [eplField, eplSum, eplZ, Complex.ext_iff]
    rw [this, norm_zero]
    positivity

/-- The terms of the series decrease. -/
theorem eplSeries_near {t f : ℝ} (h0 : 0 < t) (h2 : t < 2) (hf0 : 0 ≤ f) (hf1 : f ≤ 1) {phi : ℂ} (hphi : ‖phi‖ = f) (N : ℕ) :
    ‖(1 - phi) * (∑ n ∈ Finset.range (N + 1), (eplCoef t n : ℂ) * phi ^ n) - 1 + (eplCoef t N : ℂ) * phi ^ (N + 1)‖ ≤
      f * (1 - eplCoef t N) := by
  induction N with
  | zero =>
    have : eplCoef t 0 = 1 := by simp [eplCoef]
    simp [this]
  | succ N ih =>
    have hc := (eplCoef_mem h0 h2 N).1
    have hd : eplCoef t (N + 1) ≤ eplCoef t N := by
      rw [eplCoef_succ]
      exact mul_le_of_le_one_right hc.le (eplFactor_mem h0 h2 N).2
    rw [Finset.sum_range_succ]
    have e : (1 - phi) * (∑ n ∈ Finset.range (N + 1), (eplCoef t n : ℂ) * phi ^ n + (eplCoef t (N + 1) : ℂ) * phi ^ (N + 1)) -
        1 + (eplCoef t (N + 1) : ℂ) * phi ^ (N + 1 + 1) =
        ((1 - phi) * (∑ n ∈ Finset.range (N + 1), (eplCoef t n : ℂ) * phi ^ n) - 1 + (eplCoef t N : ℂ) * phi ^ (N + 1)) -
        ((eplCoef t N - eplCoef t (N + 1) : ℝ) : ℂ) * phi ^ (N + 1) := by
      push_cast
      ring
    rw [e]
    refine (norm_sub_le _ _).trans ?_
    rw [norm_mul, norm_pow, hphi, Complex.norm_real, Real.norm_of_nonneg (sub_nonneg.2 hd)]
    have h3 : f ^ (N + 1) ≤ f := pow_le_of_le_one hf0 hf1 (Nat.succ_ne_zero N)
    have h4 := mul_le_mul_of_nonneg_left h3 (sub_nonneg.2 hd)
    linarith

/-- The component away from the centre, whatever the number of terms. -/
theorem eplField_radial {q Rein t : ℝ} {N : ℕ} (hN : 1 ≤ N) (hq : 0 < q) (hq1 : q ≤ 1) (hR : 0 ≤ Rein) (h0 : 0 < t) (h2 : t < 2)
    {x y : ℝ} (h : x ≠ 0 ∨ y ≠ 0) :
    (Rein * √q) ^ t * (2 / (1 + q)) * ‖eplZ q x y‖ ^ (2 - t) ≤ (eplField q Rein t N x y * conj (⟨x, y⟩ : ℂ)).re := by
  have hz := norm_eplZ q x y
  have hz0 : 0 < ‖eplZ q x y‖ := norm_pos_iff.2 (eplZ_ne q hq h).1
  have hzb := (eplZ_ne q hq h).2
  have hf0 : 0 ≤ (1 - q) / (1 + q) := div_nonneg (by linarith) (by linarith)
  have hf1 : (1 - q) / (1 + q) ≤ 1 := by rw [div_le_one (by linarith)]; linarith
  have hphi := norm_eplPhi q hq hq1 h
  obtain ⟨n, rfl⟩ : ∃ n, N = n + 1 := ⟨N - 1, by omega⟩
  set f := (1 - q) / (1 + q) with hf
  set S := ∑ i ∈ Finset.range (n + 1), (eplCoef t i : ℂ) * eplPhi q x y ^ i with hS
  have hre : 1 - f ≤ ((1 - eplPhi q x y) * S).re := by
    have h3 := eplSeries_near h0 h2 hf0 hf1 hphi n
    rw [← hS] at h3
    have h4 : ‖(1 - eplPhi q x y) * S - 1‖ ≤ f := by
      have h5 : ‖(eplCoef t n : ℂ) * eplPhi q x y ^ (n + 1)‖ ≤ f * eplCoef t n := by
        rw [norm_mul, norm_pow, hphi, Complex.norm_real, Real.norm_of_nonneg (eplCoef_mem h0 h2 n).1.le, mul_comm]
        exact mul_le_mul_of_nonneg_right (pow_le_of_le_one hf0 hf1 (Nat.succ_ne_zero n)) (eplCoef_mem h0 h2 n).1.le
      have h6 := norm_sub_le ((1 - eplPhi q x y) * S - 1 + (eplCoef t n : ℂ) * eplPhi q x y ^ (n + 1))
        ((eplCoef t n : ℂ) * eplPhi q x y ^ (n + 1))
      rw [add_sub_cancel_right] at h6
      linarith
    have h7 := neg_le_of_abs_le ((Complex.abs_re_le_norm _).trans h4)
    rw [Complex.sub_re, Complex.one_re] at h7
    linarith
  have hv : conj (⟨x, y⟩ : ℂ) = (((1 + q) / (2 * q) : ℝ) : ℂ) * (conj (eplZ q x y) * (1 - eplPhi q x y)) := by
    have h3 : conj (eplZ q x y) * (1 - eplPhi q x y) = eplZb q x y + (f : ℂ) * eplZ q x y := by
      rw [conj_eplZ, eplPhi, ← hf]
      push_cast
      field_simp
      ring
    rw [h3]
    have hq' : (1 + q) ≠ 0 := by positivity
    apply Complex.ext
    · rw [Complex.re_ofReal_mul, Complex.add_re, Complex.re_ofReal_mul, Complex.conj_re]
      simp only [eplZ, eplZb, hf]
      field_simp
      ring
    · rw [Complex.im_ofReal_mul, Complex.add_im, Complex.im_ofReal_mul, Complex.conj_im]
      simp only [eplZ, eplZb, hf]
      field_simp
      ring
  have e : eplField q Rein t (n + 1) x y * conj (⟨x, y⟩ : ℂ) =
      (((Rein * √q / ‖eplZ q x y‖) ^ t * ‖eplZ q x y‖ ^ 2 / q : ℝ) : ℂ) * ((1 - eplPhi q x y) * S) := by
    have h3 : eplZ q x y * conj (eplZ q x y) = ((‖eplZ q x y‖ ^ 2 : ℝ) : ℂ) := by
      rw [Complex.mul_conj, Complex.normSq_eq_norm_sq]
    have h4 : ((2 / (1 + q) * (Rein * √q / ‖eplZ q x y‖) ^ t : ℝ) : ℂ) * (((1 + q) / (2 * q) : ℝ) : ℂ) =
        (((Rein * √q / ‖eplZ q x y‖) ^ t / q : ℝ) : ℂ) := by
      rw [← Complex.ofReal_mul]
      congr 1
      field_simp
    rw [hv, eplField, eplSum, ← hz, ← hS]
    calc _ = (((2 / (1 + q) * (Rein * √q / ‖eplZ q x y‖) ^ t : ℝ) : ℂ) * (((1 + q) / (2 * q) : ℝ) : ℂ)) *
          (eplZ q x y * conj (eplZ q x y)) * ((1 - eplPhi q x y) * S) := by ring
      _ = _ := by
        rw [h3, h4, ← Complex.ofReal_mul]
        congr 2
        ring
  rw [e, Complex.re_ofReal_mul]
  calc _ = (Rein * √q / ‖eplZ q x y‖) ^ t * ‖eplZ q x y‖ ^ 2 / q * (1 - f) := by
        rw [div_rpow (by positivity) hz0.le, rpow_sub hz0, rpow_two, hf,
          show 1 - (1 - q) / (1 + q) = 2 * q / (1 + q) by field_simp; ring]
        field_simp
    _ ≤ _ := mul_le_mul_of_nonneg_left hre (by positivity)

theorem eplField_contDiffAt {q Rein t : ℝ} (N : ℕ) (hq : 0 < q) {v : ℂ} (hv : v ≠ 0) (hR : 0 < Rein) :
    ContDiffAt ℝ 1 (fun v : ℂ => eplField q Rein t N v.re v.im) v := by
  have hv' : v.re ≠ 0 ∨ v.im ≠ 0 := by
    by_contra h
    push Not at h
    exact hv (Complex.ext h.1 h.2)
  obtain ⟨hz, hzb⟩ := eplZ_ne q hq hv'
  have hre : ContDiffAt ℝ 1 (fun v : ℂ => v.re) v := Complex.reCLM.contDiff.contDiffAt
  have him : ContDiffAt ℝ 1 (fun v : ℂ => v.im) v := Complex.imCLM.contDiff.contDiffAt
  have hreC : ContDiffAt ℝ 1 (fun v : ℂ => (v.re : ℂ)) v := Complex.ofRealCLM.contDiff.contDiffAt.comp v hre
  have himC : ContDiffAt ℝ 1 (fun v : ℂ => (v.im : ℂ)) v := Complex.ofRealCLM.contDiff.contDiffAt.comp v him
  have e1 : (fun v : ℂ => eplZ q v.re v.im) = fun v : ℂ => (q : ℂ) * v.re + v.im * Complex.I := by
    funext v
    apply Complex.ext <;> simp [eplZ]
  have e2 : (fun v : ℂ => eplZb q v.re v.im) = fun v : ℂ => (q : ℂ) * v.re - v.im * Complex.I := by
    funext v
    apply Complex.ext <;> simp [eplZb]
  have c1 : ContDiffAt ℝ 1 (fun v : ℂ => eplZ q v.re v.im) v := by
    rw [e1]
    exact (contDiffAt_const.mul hreC).add (himC.mul contDiffAt_const)
  have c2 : ContDiffAt ℝ 1 (fun v : ℂ => eplZb q v.re v.im) v := by
    rw [e2]
    exact (contDiffAt_const.mul hreC).sub (himC.mul contDiffAt_const)
  have c3 : ContDiffAt ℝ 1 (fun v : ℂ => eplPhi q v.re v.im) v := by
    simp only [eplPhi, div_eq_mul_inv (eplZ _ _ _)]
    exact (c1.mul (c2.inv hzb)).mul contDiffAt_const
  have hpos : 0 < q ^ 2 * v.re ^ 2 + v.im ^ 2 := by
    rcases hv' with h | h <;> positivity
  have c4 : ContDiffAt ℝ 1 (fun v : ℂ => √(q ^ 2 * v.re ^ 2 + v.im ^ 2)) v :=
    ((contDiffAt_const.mul (hre.pow 2)).add (him.pow 2)).sqrt hpos.ne'
  have c5 : ContDiffAt ℝ 1 (fun v : ℂ => 2 / (1 + q) * (Rein * √q / √(q ^ 2 * v.re ^ 2 + v.im ^ 2)) ^ t) v :=
    contDiffAt_const.mul ((contDiffAt_const.div c4 (sqrt_pos.2 hpos).ne').rpow contDiffAt_const
      (div_pos (mul_pos hR (sqrt_pos.2 hq)) (sqrt_pos.2 hpos)).ne')
  have c6 : ContDiffAt ℝ 1
      (fun v : ℂ => ((2 / (1 + q) * (Rein * √q / √(q ^ 2 * v.re ^ 2 + v.im ^ 2)) ^ t : ℝ) : ℂ)) v :=
    Complex.ofRealCLM.contDiff.contDiffAt.comp v c5
  have c7 : ContDiffAt ℝ 1 (fun v : ℂ => eplSum (eplZ q v.re v.im) (eplPhi q v.re v.im) t N) v :=
    c1.mul (ContDiffAt.sum fun n _ => contDiffAt_const.mul (c3.pow n))
  exact c6.mul c7

theorem young_rpow {K t : ℝ} (hK : 0 ≤ K) (h0 : 0 < t) (h1 : t < 1) {ε : ℝ} (hε : 0 < ε) :
    ∃ M, ∀ r, 0 ≤ r → K * r ^ (1 - t) ≤ ε * r + M := by
  set R := ((K + 1) / ε) ^ t⁻¹ with hR
  have hR0 : 0 < R := by positivity
  refine ⟨K * R ^ (1 - t), fun r hr => ?_⟩
  rcases le_total r R with h | h
  · have := mul_le_mul_of_nonneg_left (rpow_le_rpow hr h (by linarith : 0 ≤ 1 - t)) hK
    have := mul_nonneg hε.le hr
    linarith
  · have hr0 : 0 < r := hR0.trans_le h
    have h2 : (K + 1) / ε ≤ r ^ t := by
      calc (K + 1) / ε = R ^ t := by rw [hR, ← rpow_mul (by positivity), inv_mul_cancel₀ h0.ne', rpow_one]
        _ ≤ r ^ t := rpow_le_rpow hR0.le h h0.le
    rw [div_le_iff₀ hε] at h2
    rw [rpow_sub hr0, rpow_one, ← mul_div_assoc]
    have h3 : K * r / r ^ t ≤ ε * r := by
      rw [div_le_iff₀ (by positivity)]
      nlinarith
    have : 0 ≤ K * R ^ (1 - t) := by positivity
    linarith

/-- A power law with a slope below isothermal is continuous, with a kink at its centre. -/
theorem C143_shallow_epl (z x0 y0 q phi Rein t s : ℝ) (N : ℕ) (cs : Option ℕ) (hN : 1 ≤ N) (hcs : ChunkOk N cs) (hq : 0 < q)
    (hq1 : q ≤ 1) (hR : 0 < Rein) (h0 : 0 < t) (h1 : t < 1) : (shallowEpl z x0 y0 q phi Rein t s N cs).Valid := by
  have hu : ‖(⟨cos phi, sin phi⟩ : ℂ)‖ = 1 := by
    rw [Complex.norm_def, Complex.normSq_apply]
    simp only
    rw [← sq, ← sq, cos_sq_add_sin_sq, sqrt_one]
  have hb : ∀ w, ‖eplMap x0 y0 q phi Rein t N w‖ ≤ (Rein * √q) ^ t / q * ‖w - ⟨x0, y0⟩‖ ^ (1 - t) := fun w => by
    have := eplField_bound N hq hq1 hR.le h0 h1 (conj (⟨cos phi, sin phi⟩ : ℂ) * (w - ⟨x0, y0⟩)).re
      (conj (⟨cos phi, sin phi⟩ : ℂ) * (w - ⟨x0, y0⟩)).im
    rw [Complex.eta, norm_mul, Complex.norm_conj, hu, one_mul] at this
    rw [eplMap, norm_mul, hu, one_mul]
    exact this
  have hsm : ∀ w : ℂ, w ≠ ⟨x0, y0⟩ → ContDiffAt ℝ 1 (eplMap x0 y0 q phi Rein t N) w := fun w hw => by
    refine contDiffAt_const.mul (ContDiffAt.comp (g := fun v : ℂ => eplField q Rein t N v.re v.im) w ?_
      (contDiffAt_const.mul (contDiffAt_id.sub contDiffAt_const)))
    exact eplField_contDiffAt N hq (turn_ne (sub_ne_zero.2 hw)) hR
  exact {
    value := fun p _ => eplMap_value x0 y0 q phi Rein t s N cs hN hcs p.1 p.2
    cont := by
      refine continuous_iff_continuousAt.2 fun w => ?_
      by_cases hw : w = ⟨x0, y0⟩
      · subst hw
        have h2 : eplMap x0 y0 q phi Rein t N ⟨x0, y0⟩ = 0 := by
          have := hb ⟨x0, y0⟩
          rw [sub_self, norm_zero, zero_rpow (by linarith), mul_zero] at this
          exact norm_le_zero_iff.1 this
        rw [ContinuousAt, h2]
        refine squeeze_zero_norm hb ?_
        have h3 : Continuous fun w : ℂ => (Rein * √q) ^ t / q * ‖w - ⟨x0, y0⟩‖ ^ (1 - t) :=
          continuous_const.mul ((continuous_id.sub continuous_const).norm.rpow_const fun _ => Or.inr (by linarith))
        have h4 := h3.tendsto ⟨x0, y0⟩
        rw [sub_self, norm_zero, zero_rpow (by linarith), mul_zero] at h4
        exact h4
      · exact (hsm w hw).continuousAt
    smooth := fun p hp => hsm _ fun h => hp (by
      rw [Finset.mem_singleton]
      exact Prod.ext (congrArg Complex.re h) (congrArg Complex.im h))
    growth := fun ε hε => by
      obtain ⟨M, hM⟩ := young_rpow (K := (Rein * √q) ^ t / q) (by positivity) h0 h1 hε
      refine ⟨ε * ‖(⟨x0, y0⟩ : ℂ)‖ + M, fun w => ?_⟩
      have h2 := hb w
      have h3 := hM _ (norm_nonneg (w - ⟨x0, y0⟩))
      have h4 := mul_le_mul_of_nonneg_left (norm_sub_le w ⟨x0, y0⟩) hε.le
      linarith }

/-- A power law with a slope below isothermal, external shear and convergence: an odd number of images, for almost every
source. -/
theorem C143_epl_odd (z x0 y0 q phi Rein t s g1 g2 k : ℝ) (N : ℕ) (cs : Option ℕ) (hN : 1 ≤ N) (hcs : ChunkOk N cs) (hq : 0 < q)
    (hq1 : q ≤ 1) (hR : 0 < Rein) (h0 : 0 < t) (h1 : t < 1) (hg : g1 ^ 2 + g2 ^ 2 < (1 - k) ^ 2) :
    ∀ᵐ b : ℝ × ℝ, (planeImages z [shallowEpl z x0 y0 q phi Rein t s N cs, .field (.shear 0 0 g1 g2), .field (.sheet 0 0 k)]
      b).ncard % 2 = 1 := by
  have hl : ∀ m ∈ [shallowEpl z x0 y0 q phi Rein t s N cs, .field (.shear 0 0 g1 g2), .field (.sheet 0 0 k)], m.Valid := by
    intro m hm
    simp only [List.mem_cons, List.not_mem_nil, or_false] at hm
    rcases hm with rfl | rfl | rfl
    · exact C143_shallow_epl z x0 y0 q phi Rein t s N cs hN hcs hq hq1 hR h0 h1
    all_goals simp [Valid, Ok]
  filter_upwards [C143_odd z _ hl (by simp [shallowEpl, pole, place]) (by simpa [shallowEpl, kap, gam, kappa, gamma] using hg)]
    with b hb
  exact hb.2.1

/-- The same with a slope above isothermal. -/
noncomputable def steepEpl (z x0 y0 q phi Rein t s : ℝ) (N : ℕ) (cs : Option ℕ) : PlaneMember :=
  .spike ⟨z, eplClassDeflectionOpt x0 y0 q phi Rein t N cs s,
    fun x y => (eplPotential x0 y0 q phi Rein t N cs x y).toOption⟩ x0 y0 (eplMap 0 0 q phi Rein t N)

/-- Towards the centre of a power law with a slope above isothermal the deflection grows without bound, although the code
returns zero at the centre itself. -/
theorem C143_steep_epl (z x0 y0 q phi Rein t s : ℝ) (N : ℕ) (cs : Option ℕ) (hN : 1 ≤ N) (hcs : ChunkOk N cs) (hq : 0 < q)
    (hq1 : q ≤ 1) (hR : 0 < Rein) (h1 : 1 < t) (h2 : t < 2) : (steepEpl z x0 y0 q phi Rein t s N cs).Valid := by
  have hu : ‖(⟨cos phi, sin phi⟩ : ℂ)‖ = 1 := by
    rw [Complex.norm_def, Complex.normSq_apply]
    simp only
    rw [← sq, ← sq, cos_sq_add_sin_sq, sqrt_one]
  have h00 : (⟨0, 0⟩ : ℂ) = 0 := rfl
  have hturn : ∀ v : ℂ, ‖conj (⟨cos phi, sin phi⟩ : ℂ) * v‖ = ‖v‖ := fun v => by
    rw [norm_mul, Complex.norm_conj, hu, one_mul]
  have hcomp : ∀ v : ℂ, v ≠ 0 → (conj (⟨cos phi, sin phi⟩ : ℂ) * v).re ≠ 0 ∨ (conj (⟨cos phi, sin phi⟩ : ℂ) * v).im ≠ 0 := by
    intro v hv
    by_contra h
    push Not at h
    exact turn_ne hv (Complex.ext h.1 h.2)
  exact {
    value := fun p _ => by
      change eplClassDeflectionOpt x0 y0 q phi Rein t N cs s p.1 p.2 = _
      rw [eplMap_value x0 y0 q phi Rein t s N cs hN hcs, eplMap, eplMap, h00, sub_zero]
    smooth := fun v hv => by
      refine contDiffAt_const.mul (ContDiffAt.comp (g := fun v : ℂ => eplField q Rein t N v.re v.im) v ?_
        (contDiffAt_const.mul (contDiffAt_id.sub contDiffAt_const)))
      refine eplField_contDiffAt N hq (turn_ne ?_) hR
      simpa [h00] using hv
    steep := fun C => by
      set K := (Rein * √q) ^ t * (2 / (1 + q)) * q with hK
      have hK0 : 0 < K := by positivity
      set δ := ((|C| + 1) / K) ^ (1 - t)⁻¹ with hδ
      have hδ0 : 0 < δ := by positivity
      have hev : ∀ᶠ v in 𝓝[≠] (0 : ℂ), ‖v‖ < δ := by
        have : ContinuousAt (fun v : ℂ => ‖v‖) 0 := continuous_norm.continuousAt
        exact (this.eventually (gt_mem_nhds (by simpa using hδ0))).filter_mono nhdsWithin_le_nhds
      filter_upwards [hev, self_mem_nhdsWithin] with v hv hne
      have hv0 : v ≠ 0 := hne
      have hn : 0 < ‖v‖ := norm_pos_iff.2 hv0
      have h3 := eplField_radial hN hq hq1 hR.le (by linarith) h2 (hcomp v hv0)
      obtain ⟨h4, h5⟩ := eplZ_le hq hq1 (conj (⟨cos phi, sin phi⟩ : ℂ) * v).re (conj (⟨cos phi, sin phi⟩ : ℂ) * v).im
      set r := ‖eplZ q (conj (⟨cos phi, sin phi⟩ : ℂ) * v).re (conj (⟨cos phi, sin phi⟩ : ℂ) * v).im‖ with hr
      rw [Complex.eta, hturn] at h4 h5
      rw [Complex.eta] at h3
      have hr0 : 0 < r := (mul_pos hq hn).trans_le h4
      have e : eplMap 0 0 q phi Rein t N v * conj v = eplField q Rein t N (conj (⟨cos phi, sin phi⟩ : ℂ) * v).re
          (conj (⟨cos phi, sin phi⟩ : ℂ) * v).im * conj (conj (⟨cos phi, sin phi⟩ : ℂ) * v) := by
        rw [eplMap, h00, sub_zero, map_mul, Complex.conj_conj]
        ring
      rw [e]
      refine le_trans ?_ h3
      have h6 : (|C| + 1) / K ≤ ‖v‖ ^ (1 - t) := by
        calc (|C| + 1) / K = δ ^ (1 - t) := by
              rw [hδ, ← rpow_mul (by positivity), inv_mul_cancel₀ (by linarith), rpow_one]
          _ ≤ ‖v‖ ^ (1 - t) := rpow_le_rpow_of_nonpos hn hv.le (by linarith)
      have h7 : ‖v‖ ^ (1 - t) ≤ r ^ (1 - t) := rpow_le_rpow_of_nonpos hr0 h5 (by linarith)
      have h8 : r ^ (2 - t) = r * r ^ (1 - t) := by
        rw [show 2 - t = 1 + (1 - t) by ring, rpow_add hr0, rpow_one]
      rw [div_le_iff₀ hK0] at h6
      calc C * ‖v‖ ≤ (|C| + 1) * ‖v‖ := mul_le_mul_of_nonneg_right (by linarith [le_abs_self C]) hn.le
        _ ≤ ‖v‖ ^ (1 - t) * K * ‖v‖ := mul_le_mul_of_nonneg_right h6 hn.le
        _ = (Rein * √q) ^ t * (2 / (1 + q)) * ((q * ‖v‖) * ‖v‖ ^ (1 - t)) := by rw [hK]; ring
        _ ≤ (Rein * √q) ^ t * (2 / (1 + q)) * (r * r ^ (1 - t)) :=
            mul_le_mul_of_nonneg_left (mul_le_mul h4 h7 (by positivity) hr0.le) (by positivity)
        _ = _ := by rw [h8]
    growth := fun ε hε => by
      refine ⟨1 / q, (Rein * √q) ^ t / q, fun v hv => ?_⟩
      have hn : 0 < ‖v‖ := (by positivity : (0 : ℝ) < 1 / q).trans_le hv
      have hv0 : v ≠ 0 := norm_pos_iff.1 hn
      have h3 := eplField_size (Rein := Rein) N hq hq1 hR.le (by linarith : 0 < t) h2 (hcomp v hv0)
      have h4 := (eplZ_le hq hq1 (conj (⟨cos phi, sin phi⟩ : ℂ) * v).re (conj (⟨cos phi, sin phi⟩ : ℂ) * v).im).1
      rw [Complex.eta, hturn] at h4
      have h5 : 1 ≤ q * ‖v‖ := by
        rw [div_le_iff₀ hq] at hv
        linarith
      have h6 := rpow_le_one_of_one_le_of_nonpos (h5.trans h4) (by linarith : 1 - t ≤ 0)
      rw [eplMap, h00, sub_zero, norm_mul, hu, one_mul]
      have h7 : 0 ≤ (Rein * √q) ^ t / q := by positivity
      have h8 := mul_le_mul_of_nonneg_left h6 h7
      have := mul_nonneg hε.le hn.le
      linarith }

/-- A power law with a slope above isothermal, external shear and convergence: an even number of images, for almost every
source. -/
theorem C143_epl_even (z x0 y0 q phi Rein t s g1 g2 k : ℝ) (N : ℕ) (cs : Option ℕ) (hN : 1 ≤ N) (hcs : ChunkOk N cs) (hq : 0 < q)
    (hq1 : q ≤ 1) (hR : 0 < Rein) (h1 : 1 < t) (h2 : t < 2) (hg : g1 ^ 2 + g2 ^ 2 ≠ (1 - k) ^ 2) :
    ∀ᵐ b : ℝ × ℝ, (planeImages z [steepEpl z x0 y0 q phi Rein t s N cs, .field (.shear 0 0 g1 g2), .field (.sheet 0 0 k)]
      b).ncard % 2 = 0 := by
  set l := [steepEpl z x0 y0 q phi Rein t s N cs, .field (.shear 0 0 g1 g2), .field (.sheet 0 0 k)] with hld
  have hl : ∀ m ∈ l, m.Valid := by
    intro m hm
    simp only [hld, List.mem_cons, List.not_mem_nil, or_false] at hm
    rcases hm with rfl | rfl | rfl
    · exact C143_steep_epl z x0 y0 q phi Rein t s N cs hN hcs hq hq1 hR h1 h2
    all_goals simp [Valid, Ok]
  have hc : ∀ m ∈ l, m.cusp = none := by simp [hld, steepEpl, cusp]
  have hst : planeStars l = {(x0, y0)} := by
    ext p
    simp [mem_planeStars, hld, steepEpl, starAt, place, eq_comm]
  have hco : ∀ b, {p | CutCovers z l b p} = ∅ := fun b => Set.eq_empty_of_forall_notMem fun p h => by
    obtain ⟨pre, post, m, c, h1, h2, -⟩ := h
    rw [hc m (by rw [h1]; simp)] at h2
    simp at h2
  have hs : Separate z l := fun pre post m p he hm => by
    rw [hc m (by rw [he]; simp)] at hm
    simp at hm
  filter_upwards [C143_almost_every z l hl hs (by simpa [hld, steepEpl, kap, gam, kappa, gamma] using hg.symm)] with b hb
  have := hb.2.1
  rw [hst, hco b, Set.ncard_empty, Finset.card_singleton] at this
  exact this

/-- A power law of slope `1/2` and axis ratio `7/10` with the default number of terms, with shear. -/
example := C143_epl_odd (1 / 2) 0 0 (7 / 10) 1 1 (1 / 2) 0 (1 / 20) 0 0 18 none (by norm_num) (Or.inl rfl) (by norm_num)
  (by norm_num) one_pos (by norm_num) (by norm_num) (by norm_num)

/-- A power law of slope `3/2` in the same field. -/
example := C143_epl_even (1 / 2) 0 0 (7 / 10) 1 1 (3 / 2) 0 (1 / 20) 0 0 18 none (by norm_num) (Or.inl rfl) (by norm_num)
  (by norm_num) one_pos (by norm_num) (by norm_num) (by norm_num)

end Caustics
