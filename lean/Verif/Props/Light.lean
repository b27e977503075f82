import Verif.Model.Light
import Mathlib.Tactic.Positivity
import Mathlib.Tactic.FieldSimp
import Mathlib.Tactic.Linarith
import Mathlib.Tactic.NormNum

/-! C46 (Sersic profile), C47 (star with limb darkening). -/

namespace Caustics

/-! ### C46 -/

/-- Elliptical radius of the point `(x, y)`: coordinates along the axes of the ellipse, the second one
divided by the axis ratio. -/
noncomputable def ellRadius (x0 y0 q phi x y : ℝ) : ℝ :=
  Real.sqrt (((x - x0) * Real.cos phi + (y - y0) * Real.sin phi) ^ 2
    + (((y - y0) * Real.cos phi - (x - x0) * Real.sin phi) / q) ^ 2)

theorem brightnessSersic_eq (x0 y0 q phi n Re Ie x y k s : ℝ) :
    brightnessSersic x0 y0 q phi n Re Ie x y k s =
      Ie * Real.exp (-k * (((ellRadius x0 y0 q phi x y + s) / Re) ^ (1 / n) - 1)) := rfl

/-- The profile on, inside and outside the ellipse with elliptical radius `Re`. -/
theorem C46_profile {x0 y0 q phi n Re Ie k : ℝ} (hn : 0 < n) (hRe : 0 < Re) (hIe : 0 < Ie) (hk : 0 < k) (x y : ℝ) :
    0 < brightnessSersic x0 y0 q phi n Re Ie x y k 0 ∧
    (ellRadius x0 y0 q phi x y = Re ↔ brightnessSersic x0 y0 q phi n Re Ie x y k 0 = Ie) ∧
    (ellRadius x0 y0 q phi x y < Re ↔ Ie < brightnessSersic x0 y0 q phi n Re Ie x y k 0) ∧
    brightnessSersic x0 y0 q phi n Re Ie x y k 0 ≤ Ie * Real.exp k := by
  rw [brightnessSersic_eq, add_zero]
  have he : 0 ≤ ellRadius x0 y0 q phi x y := Real.sqrt_nonneg _
  generalize ellRadius x0 y0 q phi x y = e at *
  have hi : 0 < 1 / n := by positivity
  have hr : 0 ≤ e / Re := by positivity
  have hlt : (e / Re) ^ (1 / n) < 1 ↔ e < Re := by
    have h1 : (e / Re) ^ (1 / n) < (1 : ℝ) ^ (1 / n) ↔ e / Re < 1 := Real.rpow_lt_rpow_iff hr zero_le_one hi
    rw [Real.one_rpow] at h1
    rw [h1]
    exact div_lt_one hRe
  have heq : (e / Re) ^ (1 / n) = 1 ↔ e = Re := by
    constructor
    · intro h
      have h2 : (e / Re) ^ (1 / n) = (1 : ℝ) ^ (1 / n) := by rw [h, Real.one_rpow]
      have h3 := (Real.rpow_left_inj hr zero_le_one hi.ne').1 h2
      rwa [div_eq_one_iff_eq hRe.ne'] at h3
    · rintro rfl
      rw [div_self hRe.ne', Real.one_rpow]
  refine ⟨by positivity, ?_, ?_, ?_⟩
  · rw [← heq]
    constructor
    · intro h; rw [h]; simp
    · intro h
      have h1 : Real.exp (-k * ((e / Re) ^ (1 / n) - 1)) = 1 := by
        have := mul_left_cancel₀ hIe.ne' (h.trans (mul_one Ie).symm)
        exact this
      rw [Real.exp_eq_one_iff] at h1
      rcases mul_eq_zero.1 h1 with h2 | h2
      · linarith
      · linarith
  · rw [← hlt]
    rw [lt_mul_iff_one_lt_right hIe, Real.one_lt_exp_iff]
    constructor
    · intro h; nlinarith
    · intro h
      by_contra hc
      rw [not_lt] at hc
      nlinarith
  · refine mul_le_mul_of_nonneg_left (Real.exp_le_exp.2 ?_) hIe.le
    have : 0 ≤ (e / Re) ^ (1 / n) := Real.rpow_nonneg hr _
    nlinarith

/-- Brightness decreases strictly with the elliptical radius and depends on nothing else. -/
theorem C46_monotone {x0 y0 q phi n Re Ie k s : ℝ} (hn : 0 < n) (hRe : 0 < Re) (hIe : 0 < Ie) (hk : 0 < k)
    (hs : 0 ≤ s) (x y x' y' : ℝ) :
    (ellRadius x0 y0 q phi x y < ellRadius x0 y0 q phi x' y' ↔
      brightnessSersic x0 y0 q phi n Re Ie x' y' k s < brightnessSersic x0 y0 q phi n Re Ie x y k s) ∧
    (ellRadius x0 y0 q phi x y = ellRadius x0 y0 q phi x' y' ↔
      brightnessSersic x0 y0 q phi n Re Ie x y k s = brightnessSersic x0 y0 q phi n Re Ie x' y' k s) := by
  have mono : ∀ e e' : ℝ, 0 ≤ e → e < e' →
      Ie * Real.exp (-k * (((e' + s) / Re) ^ (1 / n) - 1)) < Ie * Real.exp (-k * (((e + s) / Re) ^ (1 / n) - 1)) := by
    intro e e' h0 h
    refine mul_lt_mul_of_pos_left (Real.exp_lt_exp.2 ?_) hIe
    have : ((e + s) / Re) ^ (1 / n) < ((e' + s) / Re) ^ (1 / n) := by
      refine Real.rpow_lt_rpow (by positivity) ?_ (by positivity)
      exact div_lt_div_of_pos_right (by linarith) hRe
    nlinarith
  simp only [brightnessSersic_eq]
  have he : 0 ≤ ellRadius x0 y0 q phi x y := Real.sqrt_nonneg _
  have he' : 0 ≤ ellRadius x0 y0 q phi x' y' := Real.sqrt_nonneg _
  generalize ellRadius x0 y0 q phi x y = e at *
  generalize ellRadius x0 y0 q phi x' y' = e' at *
  constructor
  · constructor
    · exact mono e e' he
    · intro h
      by_contra hc
      rcases lt_or_eq_of_le (not_lt.1 hc) with hc | hc
      · exact lt_asymm h (mono e' e he' hc)
      · rw [hc] at h; exact lt_irrefl _ h
  · constructor
    · rintro rfl; rfl
    · intro h
      rcases lt_trichotomy e e' with hc | hc | hc
      · exact absurd h (mono e e' he hc).ne'
      · exact hc
      · exact absurd h (mono e' e he' hc).ne

/-- Linear in `Ie`, and unchanged when lengths and positions are scaled together. -/
theorem C46_scaling (x0 y0 q phi n Re Ie x y k s c : ℝ) :
    brightnessSersic x0 y0 q phi n Re (c * Ie) x y k s = c * brightnessSersic x0 y0 q phi n Re Ie x y k s ∧
    (0 < c → brightnessSersic (c * x0) (c * y0) q phi n (c * Re) Ie (c * x) (c * y) k (c * s)
      = brightnessSersic x0 y0 q phi n Re Ie x y k s) := by
  refine ⟨by simp only [brightnessSersic_eq]; ring, fun hc => ?_⟩
  have : ellRadius (c * x0) (c * y0) q phi (c * x) (c * y) = c * ellRadius x0 y0 q phi x y := by
    unfold ellRadius
    rw [← Real.sqrt_sq hc.le, ← Real.sqrt_mul (sq_nonneg c), Real.sqrt_sq hc.le]
    congr 1
    ring
  simp only [brightnessSersic_eq, this, ← mul_add]
  rw [mul_div_mul_left _ _ hc.ne']

/-- Both formulas for `k` are positive in the whole range of `n` the class accepts (`0.36` to `10`), so
that the profile of the class has all the properties above. -/
theorem C46_k_positive {n : ℝ} (hn : 0.36 ≤ n) : 0 < kSersic n ∧ 0 < kLenstronomy n := by
  have hn0 : 0 < n := by norm_num at hn ⊢; linarith
  constructor
  · unfold kSersic
    have hx : 0 < 1 / n := by positivity
    have hx2 : 1 / n ≤ 25 / 9 := by
      rw [div_le_iff₀ hn0]; norm_num at hn; linarith
    generalize hxe : 1 / n = t at *
    have h1 : 0 < 131 / 1148175 - t * (2194697 / 30690717750) + 46 / 25515 := by nlinarith
    have h2 : -(1 / 1000 : ℝ) ≤ t * (131 / 1148175 - t * (2194697 / 30690717750)) := by nlinarith
    have h3 : 0 < 46 / 25515 + t * (131 / 1148175 - t * (2194697 / 30690717750)) := by norm_num at h2 ⊢; linarith
    have h4 : 0 < 4 / 405 + t * (46 / 25515 + t * (131 / 1148175 - t * (2194697 / 30690717750))) := by
      have := mul_pos hx h3; linarith
    have h5 := mul_pos hx h4
    simp only
    norm_num at hn
    linarith
  · unfold kLenstronomy
    norm_num at hn ⊢
    linarith

/-- The two formulas for `k` agree to three hundredths for `n` from one half to ten. -/
theorem C46_k_modes {n : ℝ} (hn : 1 / 2 ≤ n) (hn' : n ≤ 10) : |kSersic n - kLenstronomy n| ≤ 3 / 100 := by
  have hn0 : 0 < n := by linarith
  unfold kSersic kLenstronomy
  have hx : 0 < 1 / n := by positivity
  have hx2 : 1 / n ≤ 2 := by rw [div_le_iff₀ hn0]; linarith
  have hnx : n * (1 / n) = 1 := by field_simp
  generalize 1 / n = t at *
  have h2 : -(1 / 1000 : ℝ) ≤ t * (131 / 1148175 - t * (2194697 / 30690717750)) := by nlinarith
  have h2' : t * (131 / 1148175 - t * (2194697 / 30690717750)) ≤ 3 / 10000 := by nlinarith
  have h3 : 0 < 46 / 25515 + t * (131 / 1148175 - t * (2194697 / 30690717750)) := by norm_num at h2 ⊢; linarith
  have h3' : 46 / 25515 + t * (131 / 1148175 - t * (2194697 / 30690717750)) ≤ 22 / 10000 := by norm_num at h2' ⊢; linarith
  generalize 46 / 25515 + t * (131 / 1148175 - t * (2194697 / 30690717750)) = B at *
  have h4 : 0 < t * B := mul_pos hx h3
  have h4' : t * B ≤ 44 / 10000 := by nlinarith
  have h5 : t * (4 / 405) ≤ t * (4 / 405 + t * B) := by nlinarith
  have h5' : t * (4 / 405 + t * B) ≤ 2 * (4 / 405 + 44 / 10000) := by
    have : 0 < 4 / 405 + t * B := by positivity
    nlinarith
  simp only
  rw [abs_le]
  constructor
  · norm_num at *; nlinarith
  · norm_num at *; nlinarith

/-- A de Vaucouleurs profile (`n = 4`): `7.6692...` and `7.6697`. -/
example : kLenstronomy 4 = 7.6697 ∧ |kSersic 4 - 7.6692| < 0.0001 := by
  constructor
  · norm_num [kLenstronomy]
  · rw [abs_lt]; constructor <;> norm_num [kSersic]

/-- The class: `Ie` at the effective radius, more inside, less outside, for either formula for `k`. -/
theorem C46_class (lenstronomy : Bool) {x0 y0 q phi n Re Ie : ℝ} (hn : 0.36 ≤ n) (hRe : 0 < Re) (hIe : 0 < Ie)
    (x y : ℝ) :
    let B := Sersic.brightness lenstronomy 0 x0 y0 q phi n Re Ie x y
    0 < B ∧ (ellRadius x0 y0 q phi x y = Re ↔ B = Ie) ∧ (ellRadius x0 y0 q phi x y < Re ↔ Ie < B) := by
  have hn0 : 0 < n := by norm_num at hn ⊢; linarith
  have hk : 0 < (if lenstronomy then kLenstronomy n else kSersic n) := by
    cases lenstronomy
    · exact (C46_k_positive hn).1
    · exact (C46_k_positive hn).2
  have := C46_profile (x0 := x0) (y0 := y0) (q := q) (phi := phi) hn0 hRe hIe hk x y
  exact ⟨this.1, this.2.1, this.2.2.1⟩

/-- An exponential disc (`n = 1`) with axis ratio 1/2: `Ie` on the minor axis at half the radius. -/
example (k : ℝ) : brightnessSersic 0 0 (1 / 2) 0 1 2 5 0 1 k 0 = 5 := by
  have : ellRadius 0 0 (1 / 2) 0 0 1 = 2 := by
    unfold ellRadius
    rw [Real.cos_zero, Real.sin_zero, show ((0 - 0) * 1 + (1 - 0) * 0 : ℝ) ^ 2 + (((1 - 0) * 1 - (0 - 0) * 0) / (1 / 2)) ^ 2
      = 2 ^ 2 by norm_num, Real.sqrt_sq (by norm_num)]
  rw [brightnessSersic_eq, this]
  simp

/-! ### C47 -/

/-- Linear limb darkening of a disc of radius `thetaS`. -/
noncomputable def limbLaw (thetaS Ie gamma r : ℝ) : ℝ := Ie * (1 - gamma * (1 - Real.sqrt (1 - (r / thetaS) ^ 2)))

/-- The claim. -/
def C47_statement : Prop :=
  ∀ (x0 y0 thetaS Ie x y gamma : ℝ), 0 < thetaS → 0 ≤ gamma → gamma ≤ 1 →
    brightnessStar x0 y0 thetaS Ie x y gamma =
      some (if Real.sqrt ((x - x0) ^ 2 + (y - y0) ^ 2) ≤ thetaS then
        limbLaw thetaS Ie gamma (Real.sqrt ((x - x0) ^ 2 + (y - y0) ^ 2)) else 0)

/-- What the code computes: the angle is measured against a radius of one, not against `theta_s`; where
the distance exceeds one the brightness is NaN. -/
theorem C47_actual (x0 y0 thetaS Ie x y gamma : ℝ) :
    brightnessStar x0 y0 thetaS Ie x y gamma =
      (let r := Real.sqrt ((x - x0) ^ 2 + (y - y0) ^ 2)
       if r ≤ thetaS then if r ≤ 1 then some (limbLaw 1 Ie gamma r) else none else some 0) := by
  unfold brightnessStar translateRotate limbLaw
  simp only [div_one]
  have hr : 0 ≤ Real.sqrt ((x - x0) ^ 2 + (y - y0) ^ 2) := Real.sqrt_nonneg _
  generalize Real.sqrt ((x - x0) ^ 2 + (y - y0) ^ 2) = r at *
  by_cases h1 : r ≤ 1
  · have h2 : ¬ 1 - r ^ 2 < 0 := by nlinarith
    simp only [h1, h2, if_true, if_false]; rfl
  · have h2 : 1 - r ^ 2 < 0 := by rw [not_le] at h1; nlinarith
    simp only [h1, h2, if_true, if_false]; rfl

/-- A star of radius 1/2, fully limb darkened: the limb is not dark. -/
theorem C47_fails : ¬ C47_statement := by
  intro h
  have := h 0 0 (1 / 2) 1 (1 / 2) 0 1 (by norm_num) (by norm_num) (by norm_num)
  have hr : Real.sqrt ((1 / 2 - 0) ^ 2 + (0 - 0 : ℝ) ^ 2) = 1 / 2 := by
    rw [show ((1 / 2 - 0) ^ 2 + (0 - 0 : ℝ) ^ 2) = (1 / 2) ^ 2 by norm_num, Real.sqrt_sq (by norm_num)]
  rw [C47_actual] at this
  simp only [hr, le_refl, if_true] at this
  rw [if_pos (by norm_num)] at this
  unfold limbLaw at this
  rw [Option.some.injEq] at this
  norm_num at this

/-- A star of radius two is NaN everywhere between distance one and its limb, even without limb
darkening. -/
theorem C47_nan {x0 y0 thetaS x y : ℝ} (Ie gamma : ℝ) (h1 : 1 < Real.sqrt ((x - x0) ^ 2 + (y - y0) ^ 2))
    (h2 : Real.sqrt ((x - x0) ^ 2 + (y - y0) ^ 2) ≤ thetaS) : brightnessStar x0 y0 thetaS Ie x y gamma = none := by
  rw [C47_actual]
  simp only
  rw [if_pos h2, if_neg (not_le.2 h1)]

/-- What does hold for every star: nothing outside the disc, `Ie` at the centre, uniform brightness
without limb darkening within distance one, and the law for a star of radius one.  Missing: the law for
any other radius. -/
theorem C47_partial (x0 y0 thetaS Ie x y gamma : ℝ) :
    (thetaS < Real.sqrt ((x - x0) ^ 2 + (y - y0) ^ 2) → brightnessStar x0 y0 thetaS Ie x y gamma = some 0) ∧
    (0 ≤ thetaS → brightnessStar x0 y0 thetaS Ie x0 y0 gamma = some Ie) ∧
    (thetaS ≤ 1 → Real.sqrt ((x - x0) ^ 2 + (y - y0) ^ 2) ≤ thetaS →
      brightnessStar x0 y0 thetaS Ie x y 0 = some Ie) ∧
    (thetaS = 1 → brightnessStar x0 y0 thetaS Ie x y gamma =
      some (if Real.sqrt ((x - x0) ^ 2 + (y - y0) ^ 2) ≤ thetaS then
        limbLaw thetaS Ie gamma (Real.sqrt ((x - x0) ^ 2 + (y - y0) ^ 2)) else 0)) := by
  simp only [C47_actual]
  refine ⟨fun h => by rw [if_neg (not_le.2 h)], fun h => ?_, fun h1 h2 => ?_, ?_⟩
  · have : Real.sqrt ((x0 - x0) ^ 2 + (y0 - y0) ^ 2) = 0 := by simp
    rw [this, if_pos h, if_pos zero_le_one]
    simp [limbLaw]
  · rw [if_pos h2, if_pos (h2.trans h1)]
    simp [limbLaw]
  · rintro rfl
    by_cases h : Real.sqrt ((x - x0) ^ 2 + (y - y0) ^ 2) ≤ 1 <;> simp [h]

/-- Two points of a star of radius two, without limb darkening: centre and halfway to the limb. -/
example : brightnessStar 0 0 2 7 0 0 0 = some 7 ∧ brightnessStar 0 0 2 7 (3 / 2) 0 0 = none := by
  refine ⟨(C47_partial 0 0 2 7 0 0 0).2.1 (by norm_num), C47_nan 7 0 ?_ ?_⟩ <;>
  · rw [show ((3 / 2 - 0) ^ 2 + (0 - 0 : ℝ) ^ 2) = (3 / 2) ^ 2 by norm_num, Real.sqrt_sq (by norm_num)]
    norm_num

end Caustics
