import Verif.Lemmas.Lens
import Verif.Lemmas.Ring

/-! Radial derivatives of the NFW, truncated NFW and pseudo-Jaffe profile functions. -/

open Real

namespace Caustics

/-! ### NFW -/

theorem nfwH_eq {x : ℝ} (h : 1e-6 < |x - 1|) : nfwH x = log (x / 2) + ringF x := by
  unfold nfwH
  simp only
  rcases lt_abs.mp h with h | h
  · have h1 : 1 < x := by norm_num at h ⊢; linarith
    rw [if_pos h1, ringF_gt h1, max_eq_left (by linarith)]
  · have h1 : x < 1 := by norm_num at h ⊢; linarith
    rw [if_neg (not_lt.mpr h1.le), if_pos h1, ringF_lt h1, min_eq_left (by linarith)]

theorem nfwG_eq {x : ℝ} (h : 1e-6 < |x - 1|) : nfwG x = log (x / 2) ^ 2 + ringP x := by
  unfold nfwG
  simp only
  rcases lt_abs.mp h with h | h
  · have h1 : 1 < x := by norm_num at h ⊢; linarith
    rw [if_pos h1, ringP_gt h1, max_eq_left (by linarith)]
  · have h1 : x < 1 := by norm_num at h ⊢; linarith
    rw [if_neg (not_lt.mpr h1.le), if_pos h1, ringP_lt h1, min_eq_left (by linarith)]

theorem nfwF_eq {x : ℝ} (h0 : 0 < x) (h : 1e-6 < |x - 1|) : nfwF x = 1 - ringF x := by
  unfold nfwF
  simp only
  rcases lt_abs.mp h with h | h
  · have h1 : 1 < x := by norm_num at h ⊢; linarith
    rw [if_pos h1, ringF_gt h1, max_eq_left (by linarith), two_arctan_eq h1]
  · have h1 : x < 1 := by norm_num at h ⊢; linarith
    rw [if_neg (not_lt.mpr h1.le), if_pos h1, ringF_lt h1, min_eq_left (by linarith),
      two_artanh_eq h0 h1]

theorem window_open (e x : ℝ) (h : e < |x - 1|) : ∀ᶠ y in nhds x, e < |y - 1| :=
  (isOpen_lt continuous_const (by fun_prop)).mem_nhds h

theorem ne_one_of_window {e x : ℝ} (he : 0 ≤ e) (h : e < |x - 1|) : x ≠ 1 := by
  rintro rfl
  simp at h
  linarith

theorem hasDerivAt_log_half {x : ℝ} (h0 : 0 < x) : HasDerivAt (fun x => log (x / 2)) (1 / x) x := by
  refine (((hasDerivAt_id x).div_const 2).log (by simp [h0.ne'])).congr_deriv ?_
  simp only [id]
  field_simp

theorem hasDerivAt_nfwH {x : ℝ} (h0 : 0 < x) (h : 1e-6 < |x - 1|) :
    HasDerivAt nfwH (x * nfwF x / (x ^ 2 - 1)) x := by
  have h1 := ne_one_of_window (by norm_num) h
  have he : nfwH =ᶠ[nhds x] fun x => log (x / 2) + ringF x := by
    filter_upwards [window_open _ _ h] with y hy
    exact nfwH_eq hy
  refine (((hasDerivAt_log_half h0).add (hasDerivAt_ringF h0 h1)).congr_of_eventuallyEq
    he).congr_deriv ?_
  have hne : x ^ 2 - 1 ≠ 0 := by
    intro h
    apply h1
    have : (x - 1) * (x + 1) = 0 := by linear_combination h
    rcases mul_eq_zero.mp this with h | h <;> linarith
  rw [nfwF_eq h0 h]
  field_simp
  ring

theorem hasDerivAt_nfwG {x : ℝ} (h0 : 0 < x) (h : 1e-6 < |x - 1|) :
    HasDerivAt nfwG (2 * nfwH x / x) x := by
  have h1 := ne_one_of_window (by norm_num) h
  have he : nfwG =ᶠ[nhds x] fun x => log (x / 2) ^ 2 + ringP x := by
    filter_upwards [window_open _ _ h] with y hy
    exact nfwG_eq hy
  refine ((((hasDerivAt_log_half h0).pow 2).add (hasDerivAt_ringP h0 h1)).congr_of_eventuallyEq
    he).congr_deriv ?_
  rw [nfwH_eq h]
  simp only [Nat.cast_ofNat, Nat.add_one_sub_one, pow_one]
  field_simp

/-! ### Square roots -/

theorem hasDerivAt_sqrt_add_sq {a x : ℝ} (ha : 0 < a) :
    HasDerivAt (fun x : ℝ => √(a + x ^ 2)) (x / √(a + x ^ 2)) x := by
  have : HasDerivAt (fun x : ℝ => a + x ^ 2) (2 * x) x := by
    refine (((hasDerivAt_id x).pow 2).const_add a).congr_deriv ?_
    simp
  have hp : 0 < a + x ^ 2 := by positivity
  refine (this.sqrt hp.ne').congr_deriv ?_
  have := sqrt_pos.mpr hp
  field_simp

/-! ### Truncated NFW -/

theorem tnfwF_eq {x : ℝ} (h : 1e-2 < |x - 1|) : tnfwF x = ringF x := by
  unfold tnfwF
  simp only
  norm_num at h ⊢
  rcases lt_abs.mp h with h | h
  · have h1 : 1 < x := by linarith
    rw [if_neg (by linarith), if_pos (by linarith), ringF_gt h1, max_eq_left (by linarith)]
    simp
  · have h1 : x < 1 := by linarith
    rw [if_pos (by linarith), ringF_lt h1, min_eq_left (by linarith)]
    simp

theorem tnfwP_eq {x : ℝ} (h : 1e-3 < |x - 1|) : tnfwP x = ringP x := by
  unfold tnfwP
  simp only
  norm_num at h ⊢
  rcases lt_abs.mp h with h | h
  · have h1 : 1 < x := by linarith
    rw [if_neg (by linarith), if_pos (by linarith), ringP_gt h1, max_eq_left (by linarith)]
    simp
  · have h1 : x < 1 := by linarith
    rw [if_pos (by linarith), ringP_lt h1, min_eq_left (by linarith)]
    simp

theorem hasDerivAt_tnfwL {x tau : ℝ} (h0 : 0 < x) (ht : 0 < tau) :
    HasDerivAt (fun x => tnfwL x tau) (tau / (x * √(tau ^ 2 + x ^ 2))) x := by
  have hq := hasDerivAt_sqrt_add_sq (a := tau ^ 2) (x := x) (by positivity)
  have hw : 0 < √(tau ^ 2 + x ^ 2) := sqrt_pos.mpr (by positivity)
  have hw2 : √(tau ^ 2 + x ^ 2) ^ 2 = tau ^ 2 + x ^ 2 := sq_sqrt (by positivity)
  have hd := (((hasDerivAt_id x).div (hq.const_add tau) (by positivity)).log (by
    simp only [id, Pi.div_apply]; positivity))
  refine hd.congr_deriv ?_
  simp only [id, Pi.div_apply]
  generalize √(tau ^ 2 + x ^ 2) = w at *
  field_simp
  linear_combination hw2

/-- The derivative of the enclosed mass in units of the scale radius. -/
theorem hasDerivAt_tnfwMass {g tau : ℝ} (M0 : ℝ) (h0 : 0 < g) (ht : 0 < tau) (h : 1e-2 < |g - 1|) :
    HasDerivAt (fun g => tnfwMassEnclosed g 1 tau M0)
      (M0 * (tau ^ 2 / (tau ^ 2 + 1) ^ 2) * g * ((tau ^ 2 + 1) * (1 - tnfwF g) / (g ^ 2 - 1)
        + 2 * tnfwF g + -π / √(tau ^ 2 + g ^ 2)
        + (tau ^ 2 - 1) * tnfwL g tau / (tau * √(tau ^ 2 + g ^ 2)))) g := by
  have h1 := ne_one_of_window (by norm_num) h
  have hne : g ^ 2 - 1 ≠ 0 := by
    intro h
    apply h1
    have : (g - 1) * (g + 1) = 0 := by linear_combination h
    rcases mul_eq_zero.mp this with h | h <;> linarith
  have hF : HasDerivAt tnfwF ((1 - g ^ 2 * tnfwF g) / (g * (g ^ 2 - 1))) g := by
    rw [tnfwF_eq h]
    refine (hasDerivAt_ringF h0 h1).congr_of_eventuallyEq ?_
    filter_upwards [window_open _ _ h] with y hy
    exact tnfwF_eq hy
  have hL := hasDerivAt_tnfwL h0 ht
  have hq := hasDerivAt_sqrt_add_sq (a := tau ^ 2) (x := g) (by positivity)
  have hw : 0 < √(tau ^ 2 + g ^ 2) := sqrt_pos.mpr (by positivity)
  have h2 : HasDerivAt (fun g : ℝ => tau ^ 2 + 1 + 2 * (g ^ 2 - 1)) (4 * g) g := by
    refine (((((hasDerivAt_id g).pow 2).sub_const 1).const_mul 2).const_add _).congr_deriv ?_
    simp; ring
  have hd := (((((h2.mul hF).add_const (tau * π)).add_const ((tau ^ 2 - 1) * log tau)).add
    (hq.mul (((hL.const_mul (tau ^ 2 - 1)).div_const tau).const_add (-π)))).const_mul
      (M0 * (tau ^ 2 / (tau ^ 2 + 1) ^ 2)))
  have e : (fun g => tnfwMassEnclosed g 1 tau M0) = fun g =>
      M0 * (tau ^ 2 / (tau ^ 2 + 1) ^ 2) * ((tau ^ 2 + 1 + 2 * (g ^ 2 - 1)) * tnfwF g + tau * π
        + (tau ^ 2 - 1) * log tau + √(tau ^ 2 + g ^ 2) * (-π + (tau ^ 2 - 1) * tnfwL g tau / tau)) := by
    funext g
    simp [tnfwMassEnclosed]
  rw [e]
  refine hd.congr_deriv ?_
  generalize √(tau ^ 2 + g ^ 2) = w at *
  generalize tnfwL g tau = L
  generalize tnfwF g = F
  rw [mul_assoc (M0 * (tau ^ 2 / (tau ^ 2 + 1) ^ 2)) g]
  congr 1
  field_simp
  ring

theorem tnfwMass_scale (r Rs tau M0 : ℝ) :
    tnfwMassEnclosed r Rs tau M0 = tnfwMassEnclosed (r / Rs) 1 tau M0 := by
  simp [tnfwMassEnclosed]

/-- The bracket of the truncated NFW potential. -/
noncomputable def tnfwBracket (tau g : ℝ) : ℝ :=
  2 * π * tau ^ 2 * (tau - √(tau ^ 2 + g ^ 2) + tau * log (tau + √(tau ^ 2 + g ^ 2)))
    + 2 * (tau ^ 2 - 1) * tau * √(tau ^ 2 + g ^ 2) * tnfwL g tau
    + tau ^ 2 * (tau ^ 2 - 1) * tnfwL g tau ^ 2
    + 4 * tau ^ 2 * (g ^ 2 - 1) * tnfwF g
    + tau ^ 2 * (tau ^ 2 - 1) * tnfwP g
    + tau ^ 2 * ((tau ^ 2 - 1) * log tau - tau ^ 2 - 1) * log (g ^ 2)

theorem hasDerivAt_tnfwBracket {g tau : ℝ} (h0 : 0 < g) (ht : 0 < tau) (h : 1e-2 < |g - 1|) :
    HasDerivAt (tnfwBracket tau)
      (2 * (tau ^ 2 + 1) ^ 2 * tnfwMassEnclosed g 1 tau 1 / g) g := by
  have h1 := ne_one_of_window (by norm_num) h
  have hne : g ^ 2 - 1 ≠ 0 := by
    intro h
    apply h1
    have : (g - 1) * (g + 1) = 0 := by linear_combination h
    rcases mul_eq_zero.mp this with h | h <;> linarith
  have hF : HasDerivAt tnfwF ((1 - g ^ 2 * tnfwF g) / (g * (g ^ 2 - 1))) g := by
    rw [tnfwF_eq h]
    refine (hasDerivAt_ringF h0 h1).congr_of_eventuallyEq ?_
    filter_upwards [window_open _ _ h] with y hy
    exact tnfwF_eq hy
  have h3 : 1e-3 < |g - 1| := by norm_num at h ⊢; linarith
  have hP : HasDerivAt tnfwP (2 * tnfwF g / g) g := by
    rw [tnfwF_eq h]
    refine (hasDerivAt_ringP h0 h1).congr_of_eventuallyEq ?_
    filter_upwards [window_open _ _ h3] with y hy
    exact tnfwP_eq hy
  have hL := hasDerivAt_tnfwL h0 ht
  have hq := hasDerivAt_sqrt_add_sq (a := tau ^ 2) (x := g) (by positivity)
  have hw : 0 < √(tau ^ 2 + g ^ 2) := sqrt_pos.mpr (by positivity)
  have hw2 : √(tau ^ 2 + g ^ 2) ^ 2 = tau ^ 2 + g ^ 2 := sq_sqrt (by positivity)
  have h2 : HasDerivAt (fun g : ℝ => g ^ 2) (2 * g) g := by
    refine ((hasDerivAt_id g).pow 2).congr_deriv ?_
    simp
  have hlog : HasDerivAt (fun g : ℝ => log (g ^ 2)) (2 * g / g ^ 2) g := h2.log (by positivity)
  have hlw : HasDerivAt (fun g : ℝ => log (tau + √(tau ^ 2 + g ^ 2)))
      (g / √(tau ^ 2 + g ^ 2) / (tau + √(tau ^ 2 + g ^ 2))) g :=
    (hq.const_add tau).log (by positivity)
  have hd := ((((((((hq.const_sub tau).add (hlw.const_mul tau)).const_mul (2 * π * tau ^ 2)).add
    ((hq.const_mul (2 * (tau ^ 2 - 1) * tau)).mul hL)).add
    ((hL.pow 2).const_mul (tau ^ 2 * (tau ^ 2 - 1)))).add
    (((h2.sub_const 1).const_mul (4 * tau ^ 2)).mul hF)).add
    (hP.const_mul (tau ^ 2 * (tau ^ 2 - 1)))).add
    (hlog.const_mul (tau ^ 2 * ((tau ^ 2 - 1) * log tau - tau ^ 2 - 1))))
  refine hd.congr_deriv ?_
  simp only [tnfwMassEnclosed, div_one, Nat.cast_ofNat, Nat.add_one_sub_one, pow_one, one_mul]
  generalize √(tau ^ 2 + g ^ 2) = w at *
  generalize tnfwL g tau = L
  generalize tnfwF g = F
  generalize log tau = lt
  have hg2 : g ^ 2 = w ^ 2 - tau ^ 2 := by rw [hw2]; ring
  have e1 : g / w / (tau + w) = (w - tau) / (g * w) := by
    field_simp
    linear_combination hg2
  rw [e1]
  field_simp
  linear_combination (2 * π * tau - 2 * tau ^ 2 * L + 2 * L) * hw2

/-! ### Pseudo-Jaffe -/

theorem pj_shape {R a : ℝ} (ha : 0 < a) :
    R / a / (1 + √(1 + (R / a) ^ 2)) = R / (a + √(a ^ 2 + R ^ 2)) ∧
      R / (a * (1 + √(1 + (R / a) ^ 2))) = R / (a + √(a ^ 2 + R ^ 2)) := by
  have hw : √(1 + (R / a) ^ 2) = √(a ^ 2 + R ^ 2) / a := by
    rw [show 1 + (R / a) ^ 2 = (a ^ 2 + R ^ 2) / a ^ 2 by field_simp, sqrt_div (by positivity),
      sqrt_sq ha.le]
  rw [hw]
  have := sqrt_pos.mpr (show 0 < a ^ 2 + R ^ 2 by positivity)
  constructor <;> field_simp

theorem hasDerivAt_pj_log {R a : ℝ} (ha : 0 < a) :
    HasDerivAt (fun R : ℝ => √(a ^ 2 + R ^ 2) - a * log (a + √(a ^ 2 + R ^ 2)))
      (R / (a + √(a ^ 2 + R ^ 2))) R := by
  have hq := hasDerivAt_sqrt_add_sq (a := a ^ 2) (x := R) (by positivity)
  have hw := sqrt_pos.mpr (show 0 < a ^ 2 + R ^ 2 by positivity)
  refine (hq.sub (((hq.const_add a).log (by positivity)).const_mul a)).congr_deriv ?_
  field_simp
  ring

theorem hasDerivAt_pj_shape {R a : ℝ} (ha : 0 < a) (hR : 0 < R) :
    HasDerivAt (fun R : ℝ => R / (a + √(a ^ 2 + R ^ 2)))
      (1 / √(a ^ 2 + R ^ 2) - 1 / (a + √(a ^ 2 + R ^ 2))) R := by
  have hq := hasDerivAt_sqrt_add_sq (a := a ^ 2) (x := R) (by positivity)
  have hw := sqrt_pos.mpr (show 0 < a ^ 2 + R ^ 2 by positivity)
  have hw2 : √(a ^ 2 + R ^ 2) ^ 2 = a ^ 2 + R ^ 2 := sq_sqrt (by positivity)
  refine ((hasDerivAt_id R).div (hq.const_add a) (by positivity)).congr_deriv ?_
  simp only [id]
  generalize √(a ^ 2 + R ^ 2) = w at *
  field_simp
  linear_combination hw2

end Caustics
