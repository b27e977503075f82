import Verif.Lemmas.Ring
import Mathlib.Analysis.SpecialFunctions.Trigonometric.ArctanDeriv
import Mathlib.Analysis.Calculus.Deriv.MeanValue
import Mathlib.Analysis.SpecialFunctions.Log.Deriv

/-! Bounds for `ringF`. -/

open Real Set

namespace Caustics

/-- A function with positive derivative that starts at 0 is positive. -/
theorem pos_of_deriv_pos {f f' : ℝ → ℝ} {b x : ℝ} (h0 : f 0 = 0)
    (hd : ∀ t, 0 ≤ t → t < b → HasDerivAt f (f' t) t) (hp : ∀ t, 0 < t → t < b → 0 < f' t)
    (hx : 0 < x) (hb : x < b) : 0 < f x := by
  have hm : StrictMonoOn f (Icc 0 x) := by
    apply strictMonoOn_of_deriv_pos (convex_Icc 0 x)
    · intro t ht
      exact (hd t ht.1 (lt_of_le_of_lt ht.2 hb)).continuousAt.continuousWithinAt
    · intro t ht
      rw [interior_Icc] at ht
      rw [(hd t ht.1.le (ht.2.trans hb)).deriv]
      exact hp t ht.1 (ht.2.trans hb)
  have := hm (left_mem_Icc.mpr hx.le) (right_mem_Icc.mpr hx.le) hx
  rwa [h0] at this

theorem hasDerivAt_artanh {x : ℝ} (h : x ∈ Ioo (-1 : ℝ) 1) : HasDerivAt artanh (1 / (1 - x ^ 2)) x := by
  have h1 : 0 < 1 - x := by linarith [h.2]
  have h2 : 0 < 1 + x := by linarith [h.1]
  have he : artanh =ᶠ[nhds x] fun x => 1 / 2 * (log (1 + x) - log (1 - x)) := by
    filter_upwards [isOpen_Ioo.mem_nhds h] with y hy
    rw [artanh_eq_half_log ⟨hy.1.le, hy.2.le⟩,
      log_div (by linarith [hy.1]) (by linarith [hy.2])]
  have hd := ((((hasDerivAt_id x).const_add 1).log h2.ne').sub
    (((hasDerivAt_id x).const_sub 1).log h1.ne')).const_mul (1 / 2 : ℝ)
  refine (hd.congr_of_eventuallyEq he).congr_deriv ?_
  have : 1 - x ^ 2 ≠ 0 := by nlinarith
  simp only [id]
  field_simp
  ring

theorem hasDerivAt_cube (a b : ℝ) (t : ℝ) :
    HasDerivAt (fun t : ℝ => a * t + b * t ^ 3) (a + 3 * b * t ^ 2) t := by
  refine (((hasDerivAt_id t).const_mul a).add (((hasDerivAt_id t).pow 3).const_mul b)).congr_deriv ?_
  simp; ring

theorem arctan_lt_self {t : ℝ} (h : 0 < t) : arctan t < t := by
  have := pos_of_deriv_pos (f := fun t => (1 * t + 0 * t ^ 3) - arctan t)
    (f' := fun t => (1 + 3 * 0 * t ^ 2) - 1 / (1 + t ^ 2)) (b := t + 1) (by simp)
    (fun s _ _ => (hasDerivAt_cube 1 0 s).sub (hasDerivAt_arctan s))
    (fun s hs _ => by
      have : 1 / (1 + s ^ 2) < 1 := by rw [div_lt_one (by positivity)]; nlinarith
      linarith) h (by linarith)
  linarith

theorem arctan_gt_cubic {t : ℝ} (h : 0 < t) : t - t ^ 3 / 3 < arctan t := by
  have := pos_of_deriv_pos (f := fun t => arctan t - (1 * t + -(1 / 3) * t ^ 3))
    (f' := fun t => 1 / (1 + t ^ 2) - (1 + 3 * -(1 / 3) * t ^ 2)) (b := t + 1) (by simp)
    (fun s _ _ => (hasDerivAt_arctan s).sub (hasDerivAt_cube 1 (-(1 / 3)) s))
    (fun s hs _ => by
      have : 1 / (1 + s ^ 2) - (1 + 3 * -(1 / 3) * s ^ 2) = s ^ 4 / (1 + s ^ 2) := by
        field_simp; ring
      rw [this]; positivity) h (by linarith)
  linarith

theorem arctan_lt_rational {t : ℝ} (h : 0 < t) : arctan t < (2 * t + t / (1 + t ^ 2)) / 3 := by
  have := pos_of_deriv_pos (f := fun t => (2 * t + t / (1 + t ^ 2)) / 3 - arctan t)
    (f' := fun t => (2 * 1 + (1 * (1 + t ^ 2) - t * (2 * t)) / (1 + t ^ 2) ^ 2) / 3
      - 1 / (1 + t ^ 2)) (b := t + 1) (by simp)
    (fun s _ _ => by
      have h1 : HasDerivAt (fun t : ℝ => 1 + t ^ 2) (2 * s) s := by
        refine (((hasDerivAt_id s).pow 2).const_add 1).congr_deriv (by simp)
      exact ((((hasDerivAt_id s).const_mul 2).add
        ((hasDerivAt_id s).div h1 (by positivity))).div_const 3).sub (hasDerivAt_arctan s))
    (fun s hs _ => by
      have : (2 * 1 + (1 * (1 + s ^ 2) - s * (2 * s)) / (1 + s ^ 2) ^ 2) / 3 - 1 / (1 + s ^ 2)
          = 2 * s ^ 4 / (3 * (1 + s ^ 2) ^ 2) := by
        field_simp; ring
      rw [this]; positivity) h (by linarith)
  linarith

theorem artanh_gt_cubic {t : ℝ} (h : 0 < t) (h1 : t < 1) : t + t ^ 3 / 3 < artanh t := by
  have := pos_of_deriv_pos (f := fun t => artanh t - (1 * t + (1 / 3) * t ^ 3))
    (f' := fun t => 1 / (1 - t ^ 2) - (1 + 3 * (1 / 3) * t ^ 2)) (b := 1) (by simp)
    (fun s h0 h1 => (hasDerivAt_artanh ⟨by linarith, h1⟩).sub (hasDerivAt_cube 1 (1 / 3) s))
    (fun s hs h1 => by
      have hp : 0 < 1 - s ^ 2 := by nlinarith
      have : 1 / (1 - s ^ 2) - (1 + 3 * (1 / 3) * s ^ 2) = s ^ 4 / (1 - s ^ 2) := by
        field_simp; ring
      rw [this]; positivity) h h1
  linarith

theorem artanh_lt_rational {t : ℝ} (h : 0 < t) (h1 : t < 1) :
    artanh t < (2 * t + t / (1 - t ^ 2)) / 3 := by
  have := pos_of_deriv_pos (f := fun t => (2 * t + t / (1 - t ^ 2)) / 3 - artanh t)
    (f' := fun t => (2 * 1 + (1 * (1 - t ^ 2) - t * (-(2 * t))) / (1 - t ^ 2) ^ 2) / 3
      - 1 / (1 - t ^ 2)) (b := 1) (by simp)
    (fun s h0 h1 => by
      have hp : 0 < 1 - s ^ 2 := by nlinarith
      have h2 : HasDerivAt (fun t : ℝ => 1 - t ^ 2) (-(2 * s)) s := by
        refine (((hasDerivAt_id s).pow 2).const_sub 1).congr_deriv (by simp)
      exact ((((hasDerivAt_id s).const_mul 2).add
        ((hasDerivAt_id s).div h2 hp.ne')).div_const 3).sub
          (hasDerivAt_artanh ⟨by linarith, h1⟩))
    (fun s hs h1 => by
      have hp : 0 < 1 - s ^ 2 := by nlinarith
      have : (2 * 1 + (1 * (1 - s ^ 2) - s * (-(2 * s))) / (1 - s ^ 2) ^ 2) / 3 - 1 / (1 - s ^ 2)
          = 2 * s ^ 4 / (3 * (1 - s ^ 2) ^ 2) := by
        field_simp; ring
      rw [this]; positivity) h h1
  linarith

/-! ### `ringF` -/

theorem ringF_arctan {x : ℝ} (h : 1 < x) : ringF x = arctan (√(x ^ 2 - 1)) / √(x ^ 2 - 1) := by
  obtain ⟨p, e⟩ := sqrt_sq_sub_one h
  rw [ringF_gt h]
  congr 1
  have hc : cos (arctan (√(x ^ 2 - 1))) = 1 / x := by
    rw [cos_arctan, e]
    rw [show 1 + (x ^ 2 - 1) = x ^ 2 by ring, sqrt_sq (by linarith)]
  rw [← hc, arccos_cos]
  · exact arctan_nonneg.mpr p.le
  · have := arctan_lt_pi_div_two (√(x ^ 2 - 1)); linarith [pi_pos]

theorem ringF_artanh {x : ℝ} (h0 : 0 < x) (h : x < 1) :
    ringF x = artanh (√(1 - x ^ 2)) / √(1 - x ^ 2) := by
  obtain ⟨p, e⟩ := sqrt_one_sub_sq h0 h
  have hm : √(1 - x ^ 2) ∈ Ioo (-1 : ℝ) 1 := ⟨by linarith, by nlinarith⟩
  rw [ringF_lt h]
  congr 1
  have hc : cosh (artanh (√(1 - x ^ 2))) = 1 / x := by
    rw [cosh_artanh hm, e, show 1 - (1 - x ^ 2) = x ^ 2 by ring, sqrt_sq h0.le]
  rw [← hc, arcosh_cosh]
  exact artanh_nonneg p.le

/-- Two-sided bounds around the scale radius. -/
theorem ringF_lower {x : ℝ} (h0 : 0 < x) (h1 : x ≠ 1) : (4 - x ^ 2) / 3 < ringF x := by
  rcases lt_or_gt_of_ne h1 with h | h
  · obtain ⟨p, e⟩ := sqrt_one_sub_sq h0 h
    rw [ringF_artanh h0 h, lt_div_iff₀ p]
    have := artanh_gt_cubic p (by nlinarith)
    nlinarith
  · obtain ⟨p, e⟩ := sqrt_sq_sub_one h
    rw [ringF_arctan h, lt_div_iff₀ p]
    have := arctan_gt_cubic p
    nlinarith

theorem ringF_upper {x : ℝ} (h0 : 0 < x) (h1 : x ≠ 1) : ringF x < (2 * x ^ 2 + 1) / (3 * x ^ 2) := by
  rcases lt_or_gt_of_ne h1 with h | h
  · obtain ⟨p, e⟩ := sqrt_one_sub_sq h0 h
    rw [ringF_artanh h0 h, div_lt_iff₀ p]
    have := artanh_lt_rational p (by nlinarith)
    rw [e] at this
    refine this.trans_eq ?_
    rw [show 1 - (1 - x ^ 2) = x ^ 2 by ring]
    field_simp
  · obtain ⟨p, e⟩ := sqrt_sq_sub_one h
    rw [ringF_arctan h, div_lt_iff₀ p]
    have := arctan_lt_rational p
    rw [e] at this
    refine this.trans_eq ?_
    rw [show 1 + (x ^ 2 - 1) = x ^ 2 by ring]
    field_simp

theorem ringF_lt_one {x : ℝ} (h : 1 < x) : ringF x < 1 := by
  obtain ⟨p, e⟩ := sqrt_sq_sub_one h
  rw [ringF_arctan h, div_lt_one p]
  exact arctan_lt_self p

theorem one_lt_ringF {x : ℝ} (h0 : 0 < x) (h : x < 1) : 1 < ringF x := by
  have := ringF_lower h0 h.ne
  nlinarith

/-- The surface density shape `(1-F)/(x²-1)`. -/
noncomputable def ringK (x : ℝ) : ℝ := (1 - ringF x) / (x ^ 2 - 1)

theorem ringK_pos {x : ℝ} (h0 : 0 < x) (h1 : x ≠ 1) : 0 < ringK x := by
  unfold ringK
  rcases lt_or_gt_of_ne h1 with h | h
  · have := one_lt_ringF h0 h
    exact div_pos_of_neg_of_neg (by linarith) (by nlinarith)
  · have := ringF_lt_one h
    exact div_pos (by linarith) (by nlinarith)

theorem ringK_gt {x : ℝ} (h0 : 0 < x) (h : x < 1) : 1 / 3 < ringK x := by
  have := ringF_lower h0 h.ne
  unfold ringK
  rw [lt_div_iff_of_neg (by nlinarith)]
  linarith

theorem ringK_lt {x : ℝ} (h : 1 < x) : ringK x < 1 / 3 := by
  have := ringF_lower (by linarith) h.ne'
  unfold ringK
  rw [div_lt_iff₀ (by nlinarith)]
  linarith

theorem hasDerivAt_ringK {x : ℝ} (h0 : 0 < x) (h1 : x ≠ 1) :
    HasDerivAt ringK ((3 * x ^ 2 * ringF x - 2 * x ^ 2 - 1) / (x * (x ^ 2 - 1) ^ 2)) x := by
  have hne : x ^ 2 - 1 ≠ 0 := by
    intro h
    apply h1
    have : (x - 1) * (x + 1) = 0 := by linear_combination h
    rcases mul_eq_zero.mp this with h | h <;> linarith
  have h2 : HasDerivAt (fun t : ℝ => t ^ 2 - 1) (2 * x) x := by
    refine (((hasDerivAt_id x).pow 2).sub_const 1).congr_deriv (by simp)
  refine (((hasDerivAt_ringF h0 h1).const_sub 1).div h2 hne).congr_deriv ?_
  field_simp
  ring

theorem ringK_deriv_neg {x : ℝ} (h0 : 0 < x) (h1 : x ≠ 1) : deriv ringK x < 0 := by
  rw [(hasDerivAt_ringK h0 h1).deriv]
  have hu := ringF_upper h0 h1
  rw [lt_div_iff₀ (by positivity)] at hu
  have hne : x ^ 2 - 1 ≠ 0 := by
    intro h
    apply h1
    have : (x - 1) * (x + 1) = 0 := by linear_combination h
    rcases mul_eq_zero.mp this with h | h <;> linarith
  apply div_neg_of_neg_of_pos
  · nlinarith
  · have := sq_pos_of_ne_zero hne; positivity

/-- The surface density decreases with radius, across the scale radius too. -/
theorem ringK_anti {x x' : ℝ} (h0 : 0 < x) (h : x < x') (h1 : x ≠ 1) (h1' : x' ≠ 1) :
    ringK x' < ringK x := by
  have side : ∀ s : Set ℝ, Convex ℝ s → IsOpen s → (∀ t ∈ s, 0 < t ∧ t ≠ 1) →
      StrictAntiOn ringK s := by
    intro s hc ho hs
    apply strictAntiOn_of_deriv_neg hc
    · intro t ht
      exact (hasDerivAt_ringK (hs t ht).1 (hs t ht).2).continuousAt.continuousWithinAt
    · intro t ht
      rw [ho.interior_eq] at ht
      exact ringK_deriv_neg (hs t ht).1 (hs t ht).2
  rcases lt_or_gt_of_ne h1 with a | a
  · rcases lt_or_gt_of_ne h1' with b | b
    · exact side (Ioo 0 1) (convex_Ioo 0 1) isOpen_Ioo (fun t ht => ⟨ht.1, ht.2.ne⟩)
        ⟨h0, a⟩ ⟨h0.trans h, b⟩ h
    · exact (ringK_lt b).trans (ringK_gt h0 a)
  · have b : 1 < x' := a.trans h
    exact side (Ioi 1) (convex_Ioi 1) isOpen_Ioi
      (fun t ht => ⟨lt_trans one_pos ht, (ne_of_gt ht)⟩) a b h

/-- The projected mass shape `log(x/2) + F` is positive. -/
theorem ringH_pos {x : ℝ} (h0 : 0 < x) (h1 : x ≠ 1) : 0 < log (x / 2) + ringF x := by
  rcases lt_or_gt_of_ne h1 with h | h
  · obtain ⟨p, e⟩ := sqrt_one_sub_sq h0 h
    have hT : √(1 - x ^ 2) < 1 := by nlinarith
    rw [ringF_artanh h0 h]
    generalize √(1 - x ^ 2) = T at *
    have hu := artanh_gt_cubic p hT
    -- x = √((1-T)(1+T)), artanh T = log((1+T)/x)
    have hx2 : x ^ 2 = (1 - T) * (1 + T) := by rw [show x ^ 2 = 1 - T ^ 2 by linarith]; ring
    have hat : artanh T = log (1 + T) - log x := by
      rw [artanh_eq_half_log ⟨by linarith, hT.le⟩, log_div (by linarith) (by linarith)]
      have hlx : 2 * log x = log (1 - T) + log (1 + T) := by
        rw [← log_mul (by linarith) (by linarith), ← hx2, log_pow]; norm_num
      linarith
    have hl : log (x / 2) = log ((1 + T) / 2) - artanh T := by
      rw [log_div h0.ne' (by norm_num), log_div (by linarith) (by norm_num), hat]; ring
    have hlog : 1 - ((1 + T) / 2)⁻¹ ≤ log ((1 + T) / 2) := one_sub_inv_le_log_of_pos (by linarith)
    have hinv : 1 - ((1 + T) / 2)⁻¹ = -((1 - T) / (1 + T)) := by field_simp; ring
    rw [hinv] at hlog
    have h3 : (1 - T) / (1 + T) ≤ 1 - T := by
      rw [div_le_iff₀ (by linarith)]; nlinarith
    have h4 : 1 - T < artanh T / T - artanh T := by
      have : T < artanh T := by have : 0 < T ^ 3 := by positivity
                                linarith
      have : 1 < artanh T / T := by rw [lt_div_iff₀ p]; linarith
      have h5 : artanh T / T - artanh T = artanh T / T * (1 - T) := by field_simp
      rw [h5]
      nlinarith
    rw [hl]
    linarith
  · rcases le_or_gt 2 x with h2 | h2
    · have hl : 0 ≤ log (x / 2) := log_nonneg (by linarith)
      obtain ⟨p, e⟩ := sqrt_sq_sub_one h
      have : 0 < ringF x := by
        rw [ringF_arctan h]; exact div_pos (arctan_pos.mpr p) p
      linarith
    · have hlog : 1 - (x / 2)⁻¹ ≤ log (x / 2) := one_sub_inv_le_log_of_pos (by linarith)
      have hf := ringF_lower h0 h1
      have : 0 ≤ 1 - (x / 2)⁻¹ + (4 - x ^ 2) / 3 := by
        have e : 1 - (x / 2)⁻¹ + (4 - x ^ 2) / 3 = (2 - x) * (x + 3) * (x - 1) / (3 * x) := by
          field_simp; ring
        rw [e]
        apply div_nonneg _ (by linarith)
        apply mul_nonneg (mul_nonneg _ _) _ <;> linarith
      linarith

end Caustics
