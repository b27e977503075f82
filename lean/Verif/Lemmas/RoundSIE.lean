import Verif.Lemmas.RingBounds
import Verif.Props.FirstImageLenses

/-! The isothermal ellipsoid near axis ratio 1, in its own axes. -/

namespace Caustics

open Real

theorem arctan_cubic_error (z : ℝ) : |arctan z - z| ≤ |z| ^ 3 / 3 := by
  have key : ∀ z : ℝ, 0 < z → |arctan z - z| ≤ |z| ^ 3 / 3 := by
    intro z hz
    have h1 := arctan_lt_self hz
    have h2 := arctan_gt_cubic hz
    rw [abs_of_pos hz, abs_le]
    constructor <;> nlinarith [pow_pos hz 3]
  rcases lt_trichotomy z 0 with h | h | h
  · have := key (-z) (by linarith)
    rwa [arctan_neg, abs_neg, ← neg_add', abs_neg, ← sub_eq_add_neg] at this
  · simp [h]
  · exact key z h

theorem artanh_cubic_error {z : ℝ} (h1 : |z| < 1) : |artanh z - z| ≤ |z| ^ 3 / (3 * (1 - z ^ 2)) := by
  have key : ∀ z : ℝ, 0 < z → z < 1 → |artanh z - z| ≤ |z| ^ 3 / (3 * (1 - z ^ 2)) := by
    intro z hz hz1
    have h1 := artanh_gt_cubic hz hz1
    have h2 := artanh_lt_rational hz hz1
    have hp : 0 < 1 - z ^ 2 := by nlinarith
    have e : (2 * z + z / (1 - z ^ 2)) / 3 - z = z ^ 3 / (3 * (1 - z ^ 2)) := by
      field_simp
      ring
    rw [abs_of_pos hz, abs_of_nonneg (by nlinarith [pow_pos hz 3])]
    linarith
  rcases lt_trichotomy z 0 with h | h | h
  · rw [abs_of_neg h] at h1
    have := key (-z) (by linarith) h1
    rwa [artanh_odd, abs_neg, ← neg_add', abs_neg, ← sub_eq_add_neg, neg_sq] at this
  · simp [h]
  · exact key z h (lt_of_abs_lt h1)

section

variable {q X Y s : ℝ}

theorem psi_bounds (hq0 : 0 < q) (hq1 : q < 1) (X Y s : ℝ) :
    q * √(X ^ 2 + Y ^ 2 + s ^ 2) ≤ √(q ^ 2 * (X ^ 2 + s ^ 2) + Y ^ 2) ∧
    √(q ^ 2 * (X ^ 2 + s ^ 2) + Y ^ 2) ≤ √(X ^ 2 + Y ^ 2 + s ^ 2) ∧ |Y| ≤ √(q ^ 2 * (X ^ 2 + s ^ 2) + Y ^ 2) := by
  have hq2 : q ^ 2 < 1 := by nlinarith
  refine ⟨?_, ?_, ?_⟩
  · rw [show q * √(X ^ 2 + Y ^ 2 + s ^ 2) = √(q ^ 2 * (X ^ 2 + Y ^ 2 + s ^ 2)) by
      rw [sqrt_mul (sq_nonneg q), sqrt_sq hq0.le]]
    exact sqrt_le_sqrt (by nlinarith [sq_nonneg Y])
  · exact sqrt_le_sqrt (by nlinarith [sq_nonneg X, sq_nonneg s])
  · rw [← sqrt_sq_eq_abs]
    exact sqrt_le_sqrt (by nlinarith [mul_nonneg (sq_nonneg q) (add_nonneg (sq_nonneg X) (sq_nonneg s))])

/-- The ratio of the two denominators. -/
theorem ratio_error {T D E k : ℝ} (hD : 0 < D) (hE : 0 < E) (hDE : |E - D| ≤ k * E) :
    |T / D - T / E| ≤ |T / D| * k := by
  have : T / D - T / E = T / D * ((E - D) / E) := by
    field_simp
  rw [this, abs_mul]
  refine mul_le_mul_of_nonneg_left ?_ (abs_nonneg _)
  rw [abs_div, abs_of_pos hE, div_le_iff₀ hE]
  exact hDE

theorem combine_error {w A T V a b M q : ℝ} (hw0 : 0 ≤ w) (hw1 : w ≤ 1) (hwq : q ≤ w) (hT : |T| ≤ M) (ha : |A - T| ≤ a)
    (hb : |T - V| ≤ b) : |w * A - V| ≤ a + (1 - q) * M + b := by
  have e : w * A - V = w * (A - T) + (w - 1) * T + (T - V) := by ring
  have h1 : |w * (A - T)| ≤ a := by
    rw [abs_mul, abs_of_nonneg hw0]
    exact (mul_le_of_le_one_left (abs_nonneg _) hw1).trans ha
  have h2 : |(w - 1) * T| ≤ (1 - q) * M := by
    rw [abs_mul, abs_sub_comm, abs_of_nonneg (by linarith)]
    exact mul_le_mul (by linarith) hT (abs_nonneg _) (by linarith)
  rw [e]
  have := abs_add_three (w * (A - T)) ((w - 1) * T) (T - V)
  linarith

theorem round_x (hq : 1 / 2 ≤ q) (hq1 : q < 1) (hs : 0 ≤ s) (h : 0 < X ^ 2 + Y ^ 2 + s ^ 2) :
    |√q / √(1 - q ^ 2) * arctan (√(1 - q ^ 2) * X / (√(q ^ 2 * (X ^ 2 + s ^ 2) + Y ^ 2) + s))
      - X / (√(X ^ 2 + Y ^ 2 + s ^ 2) + s)| ≤ 10 * (1 - q) := by
  have hq0 : 0 < q := by linarith
  have hf2 : 0 < 1 - q ^ 2 := by nlinarith
  obtain ⟨p1, p2, -⟩ := psi_bounds hq0 hq1 X Y s
  set f := √(1 - q ^ 2) with hf
  set psi := √(q ^ 2 * (X ^ 2 + s ^ 2) + Y ^ 2)
  set rho := √(X ^ 2 + Y ^ 2 + s ^ 2) with hrho
  have hfp : 0 < f := sqrt_pos.2 hf2
  have hff : f ^ 2 = 1 - q ^ 2 := sq_sqrt hf2.le
  have hr : 0 < rho := sqrt_pos.2 h
  have hpsi : 0 < psi := lt_of_lt_of_le (mul_pos hq0 hr) p1
  have hX : |X| ≤ rho := by
    rw [← sqrt_sq_eq_abs, hrho]
    exact sqrt_le_sqrt (by nlinarith [sq_nonneg Y, sq_nonneg s])
  have hD : 0 < psi + s := by linarith
  have hE : 0 < rho + s := by linarith
  have hT : |X / (psi + s)| ≤ 2 := by
    rw [abs_div, abs_of_pos hD, div_le_iff₀ hD]
    nlinarith
  have hw0 : 0 ≤ √q := sqrt_nonneg q
  have hww : √q ^ 2 = q := sq_sqrt hq0.le
  have hw1 : √q ≤ 1 := by nlinarith
  have hwq : q ≤ √q := by nlinarith
  have ha : |arctan (f * X / (psi + s)) / f - X / (psi + s)| ≤ 16 / 3 * (1 - q) := by
    have e : arctan (f * X / (psi + s)) / f - X / (psi + s)
        = (arctan (f * (X / (psi + s))) - f * (X / (psi + s))) / f := by
      rw [← mul_div_assoc]
      field_simp
    rw [e, abs_div, abs_of_pos hfp, div_le_iff₀ hfp]
    refine (arctan_cubic_error _).trans ?_
    rw [abs_mul, abs_of_pos hfp, mul_pow]
    have h8 : |X / (psi + s)| ^ 3 ≤ 8 := by
      have := pow_le_pow_left₀ (abs_nonneg _) hT 3
      norm_num at this ⊢
      exact this
    have hf3 : f ^ 3 = f * (1 - q ^ 2) := by rw [← hff]; ring
    have h9 : f ^ 3 * |X / (psi + s)| ^ 3 ≤ f ^ 3 * 8 := mul_le_mul_of_nonneg_left h8 (by positivity)
    rw [hf3] at h9
    rw [hf3]
    nlinarith [mul_pos hfp (sub_pos.2 hq1), mul_pos (mul_pos hfp (sub_pos.2 hq1)) (sub_pos.2 hq1)]
  have hb : |X / (psi + s) - X / (rho + s)| ≤ 2 * (1 - q) := by
    refine (ratio_error (k := 1 - q) hD hE ?_).trans (mul_le_mul_of_nonneg_right hT (by linarith))
    rw [abs_of_nonneg (by linarith)]
    nlinarith
  have := combine_error hw0 hw1 hwq hT ha hb
  rw [show √q / f * arctan (f * X / (psi + s)) = √q * (arctan (f * X / (psi + s)) / f) by ring]
  refine this.trans ?_
  linarith

theorem round_y (hq : 1 / 2 ≤ q) (hq1 : q < 1) (hs : 0 ≤ s) (h : 0 < X ^ 2 + Y ^ 2 + s ^ 2) :
    |√q / √(1 - q ^ 2) * artanh (√(1 - q ^ 2) * Y / (√(q ^ 2 * (X ^ 2 + s ^ 2) + Y ^ 2) + q ^ 2 * s))
      - Y / (√(X ^ 2 + Y ^ 2 + s ^ 2) + s)| ≤ 6 * (1 - q) := by
  have hq0 : 0 < q := by linarith
  have hf2 : 0 < 1 - q ^ 2 := by nlinarith
  obtain ⟨p1, p2, p3⟩ := psi_bounds hq0 hq1 X Y s
  set f := √(1 - q ^ 2) with hf
  set psi := √(q ^ 2 * (X ^ 2 + s ^ 2) + Y ^ 2)
  set rho := √(X ^ 2 + Y ^ 2 + s ^ 2) with hrho
  have hfp : 0 < f := sqrt_pos.2 hf2
  have hff : f ^ 2 = 1 - q ^ 2 := sq_sqrt hf2.le
  have hr : 0 < rho := sqrt_pos.2 h
  have hpsi : 0 < psi := lt_of_lt_of_le (mul_pos hq0 hr) p1
  have hq2s : 0 ≤ q ^ 2 * s := mul_nonneg (sq_nonneg q) hs
  have hD : 0 < psi + q ^ 2 * s := by linarith
  have hE : 0 < rho + s := by linarith
  have hT : |Y / (psi + q ^ 2 * s)| ≤ 1 := by
    rw [abs_div, abs_of_pos hD, div_le_iff₀ hD]
    linarith
  have hw0 : 0 ≤ √q := sqrt_nonneg q
  have hww : √q ^ 2 = q := sq_sqrt hq0.le
  have hw1 : √q ≤ 1 := by nlinarith
  have hwq : q ≤ √q := by nlinarith
  have hf1 : f < 1 := by
    have : 0 < q ^ 2 := by positivity
    nlinarith
  have ha : |artanh (f * Y / (psi + q ^ 2 * s)) / f - Y / (psi + q ^ 2 * s)| ≤ 8 / 3 * (1 - q) := by
    have e : artanh (f * Y / (psi + q ^ 2 * s)) / f - Y / (psi + q ^ 2 * s)
        = (artanh (f * (Y / (psi + q ^ 2 * s))) - f * (Y / (psi + q ^ 2 * s))) / f := by
      rw [← mul_div_assoc]
      field_simp
    set U := Y / (psi + q ^ 2 * s)
    have hfU : |f * U| ≤ f := by
      rw [abs_mul, abs_of_pos hfp]
      exact mul_le_of_le_one_right hfp.le hT
    rw [e, abs_div, abs_of_pos hfp, div_le_iff₀ hfp]
    refine (artanh_cubic_error (lt_of_le_of_lt hfU hf1)).trans ?_
    have hsq : (f * U) ^ 2 ≤ f ^ 2 := by
      rw [← sq_abs (f * U)]
      exact pow_le_pow_left₀ (abs_nonneg _) hfU 2
    have hden : 3 / 4 ≤ 3 * (1 - (f * U) ^ 2) := by
      have : 1 / 4 ≤ q ^ 2 := by nlinarith
      nlinarith
    have hnum : |f * U| ^ 3 ≤ f ^ 3 := pow_le_pow_left₀ (abs_nonneg _) hfU 3
    have hf3 : f ^ 3 = f * (1 - q ^ 2) := by rw [← hff]; ring
    rw [div_le_iff₀ (by linarith)]
    have hpos : 0 ≤ 8 / 3 * (1 - q) * f := mul_nonneg (by linarith) hfp.le
    have : 8 / 3 * (1 - q) * f * (3 / 4) ≤ 8 / 3 * (1 - q) * f * (3 * (1 - (f * U) ^ 2)) :=
      mul_le_mul_of_nonneg_left hden hpos
    refine hnum.trans (le_trans ?_ this)
    rw [hf3]
    nlinarith [mul_pos hfp (sub_pos.2 hq1), mul_pos (mul_pos hfp (sub_pos.2 hq1)) (sub_pos.2 hq1)]
  have hb : |Y / (psi + q ^ 2 * s) - Y / (rho + s)| ≤ 2 * (1 - q) := by
    refine (ratio_error (k := 2 * (1 - q)) hD hE ?_).trans ?_
    · rw [abs_of_nonneg (by nlinarith)]
      nlinarith [mul_nonneg hs (sub_pos.2 hq1).le, mul_nonneg (mul_nonneg hs (sub_pos.2 hq1).le) (sub_pos.2 hq1).le,
        mul_nonneg hr.le (sub_pos.2 hq1).le]
    · exact mul_le_of_le_one_left (by linarith) hT
  have := combine_error hw0 hw1 hwq hT ha hb
  rw [show √q / f * artanh (f * Y / (psi + q ^ 2 * s)) = √q * (artanh (f * Y / (psi + q ^ 2 * s)) / f) by ring]
  refine this.trans ?_
  linarith

/-- On the long axis of a lens without core the deflection stays below that of the sphere. -/
theorem round_x_lt {w : ℝ} (hw : 9 / 10 ≤ w) (hw1 : w < 1) :
    w / √(1 - (w ^ 2) ^ 2) * arctan (√(1 - (w ^ 2) ^ 2) / w ^ 2) < 1 := by
  have hw0 : 0 < w := by linarith
  have hw2 : w ^ 2 < 1 := by nlinarith
  have hf2 : 0 < 1 - (w ^ 2) ^ 2 := by nlinarith [sq_nonneg w]
  set f := √(1 - (w ^ 2) ^ 2)
  have hfp : 0 < f := sqrt_pos.2 hf2
  have hff : f ^ 2 = 1 - (w ^ 2) ^ 2 := sq_sqrt hf2.le
  have h := arctan_lt_rational (div_pos hfp (by positivity : 0 < w ^ 2))
  have e : (2 * (f / w ^ 2) + f / w ^ 2 / (1 + (f / w ^ 2) ^ 2)) / 3 = f * ((2 + w ^ 4) / (3 * w ^ 2)) := by
    rw [div_pow, hff]
    field_simp
    ring
  rw [e] at h
  have h1 : w / f * arctan (f / w ^ 2) < w / f * (f * ((2 + w ^ 4) / (3 * w ^ 2))) :=
    mul_lt_mul_of_pos_left h (div_pos hw0 hfp)
  have e2 : w / f * (f * ((2 + w ^ 4) / (3 * w ^ 2))) = (2 + w ^ 4) / (3 * w) := by
    field_simp
  rw [e2] at h1
  refine h1.trans ?_
  rw [div_lt_one (by positivity)]
  have h3 : 2 < w ^ 3 + w ^ 2 + w := by nlinarith [pow_le_pow_left₀ (by norm_num) hw 3, pow_le_pow_left₀ (by norm_num) hw 2]
  nlinarith [mul_pos (sub_pos.2 hw1) (sub_pos.2 h3)]

end

end Caustics
