import Verif.Props.LensSimple
import Verif.Lemmas.Polar

/-!
# C111: a distant mass acts as an external shear

An `ExternalShear` lens stands for masses outside the field of view: seen from the origin, a `Point` lens at a large distance
deflects like a constant plus an `ExternalShear`, with the sign and orientation conventions of the two classes.
-/

open Real Filter Topology

namespace Caustics

theorem tidal_sq (R a b x y : ℝ) (hd : a ^ 2 + b ^ 2 ≠ 0) (hq : (x - a) ^ 2 + (y - b) ^ 2 ≠ 0) :
    ((x - a) * R / ((x - a) ^ 2 + (y - b) ^ 2) - (0 - a) * R / (a ^ 2 + b ^ 2) -
        (-(R * (a ^ 2 - b ^ 2) / (a ^ 2 + b ^ 2) ^ 2) * x + -(R * (2 * a * b) / (a ^ 2 + b ^ 2) ^ 2) * y)) ^ 2 +
      ((y - b) * R / ((x - a) ^ 2 + (y - b) ^ 2) - (0 - b) * R / (a ^ 2 + b ^ 2) -
        (-(R * (2 * a * b) / (a ^ 2 + b ^ 2) ^ 2) * x - -(R * (a ^ 2 - b ^ 2) / (a ^ 2 + b ^ 2) ^ 2) * y)) ^ 2 =
      (R / (a ^ 2 + b ^ 2) * (x ^ 2 + y ^ 2)) ^ 2 / ((x - a) ^ 2 + (y - b) ^ 2) := by
  obtain ⟨q, hqd⟩ : ∃ q, q = (x - a) ^ 2 + (y - b) ^ 2 := ⟨_, rfl⟩
  obtain ⟨d, hdd⟩ : ∃ d, d = a ^ 2 + b ^ 2 := ⟨_, rfl⟩
  rw [← hqd] at hq ⊢
  rw [← hdd] at hd ⊢
  -- real and imaginary part of `z² / p²`
  have h1 : (x - a) * R / q - (0 - a) * R / d -
      (-(R * (a ^ 2 - b ^ 2) / d ^ 2) * x + -(R * (2 * a * b) / d ^ 2) * y) =
      R * (((x ^ 2 - y ^ 2) * (a ^ 2 - b ^ 2) + 4 * a * b * x * y) * (x - a)
        + (2 * x * y * (a ^ 2 - b ^ 2) - 2 * a * b * (x ^ 2 - y ^ 2)) * (y - b)) / (d ^ 2 * q) := by
    field_simp
    subst hqd hdd
    ring
  have h2 : (y - b) * R / q - (0 - b) * R / d -
      (-(R * (2 * a * b) / d ^ 2) * x - -(R * (a ^ 2 - b ^ 2) / d ^ 2) * y) =
      R * (((x ^ 2 - y ^ 2) * (a ^ 2 - b ^ 2) + 4 * a * b * x * y) * (y - b)
        - (2 * x * y * (a ^ 2 - b ^ 2) - 2 * a * b * (x ^ 2 - y ^ 2)) * (x - a)) / (d ^ 2 * q) := by
    field_simp
    subst hqd hdd
    ring
  rw [h1, h2]
  field_simp
  subst hqd hdd
  ring

/-- The remainder is known exactly: a `Point` lens at `d (cos φ, sin φ)` differs from a constant and the `ExternalShear` with
components `-(Rein/d)² cos 2φ` and `-(Rein/d)² sin 2φ` by a vector of length `(Rein/d)² (x² + y²) / (distance from the point)`. -/
theorem C111_remainder (Rein d phi x y : ℝ) (hd : d ≠ 0) (hxy : (x, y) ≠ (d * cos phi, d * sin phi)) :
    let P := pointDeflection (d * cos phi) (d * sin phi) Rein 0
    let S := shearDeflection 0 0 (-(Rein / d) ^ 2 * cos (2 * phi)) (-(Rein / d) ^ 2 * sin (2 * phi)) x y
    √(((P x y).1 - (P 0 0).1 - S.1) ^ 2 + ((P x y).2 - (P 0 0).2 - S.2) ^ 2) =
      (Rein / d) ^ 2 * (x ^ 2 + y ^ 2) / √((x - d * cos phi) ^ 2 + (y - d * sin phi) ^ 2) := by
  intro P S
  have h' := sub_ne_zero_or hxy
  have hR := radius_pos h'
  have hq : √((x - d * cos phi) ^ 2 + (y - d * sin phi) ^ 2) ^ 2 = (x - d * cos phi) ^ 2 + (y - d * sin phi) ^ 2 :=
    sq_sqrt (by positivity)
  have hq0 : (x - d * cos phi) ^ 2 + (y - d * sin phi) ^ 2 ≠ 0 := by rw [← hq]; positivity
  have hdd : (d * cos phi) ^ 2 + (d * sin phi) ^ 2 = d ^ 2 := by linear_combination d ^ 2 * sin_sq_add_cos_sq phi
  have h00 : √((0 - d * cos phi) ^ 2 + (0 - d * sin phi) ^ 2) ^ 2 = (d * cos phi) ^ 2 + (d * sin phi) ^ 2 := by
    rw [sq_sqrt (by positivity)]
    ring
  have hd0 : (d * cos phi) ^ 2 + (d * sin phi) ^ 2 ≠ 0 := by rw [hdd]; positivity
  have key := tidal_sq (Rein ^ 2) (d * cos phi) (d * sin phi) x y hd0 hq0
  have g1 : -(Rein / d) ^ 2 * cos (2 * phi) =
      -(Rein ^ 2 * ((d * cos phi) ^ 2 - (d * sin phi) ^ 2) / ((d * cos phi) ^ 2 + (d * sin phi) ^ 2) ^ 2) := by
    rw [hdd, cos_two_mul']
    field_simp
  have g2 : -(Rein / d) ^ 2 * sin (2 * phi) =
      -(Rein ^ 2 * (2 * (d * cos phi) * (d * sin phi)) / ((d * cos phi) ^ 2 + (d * sin phi) ^ 2) ^ 2) := by
    rw [hdd, sin_two_mul]
    field_simp
  have hr : (Rein / d) ^ 2 = Rein ^ 2 / ((d * cos phi) ^ 2 + (d * sin phi) ^ 2) := by rw [hdd, div_pow]
  rw [sqrt_eq_iff_eq_sq (by positivity) (by positivity), div_pow, hq]
  simp only [P, S, pointDeflection, shearDeflection, translateRotate, add_zero, hq, h00, g1, g2, sub_zero]
  rw [hr]
  simpa only [zero_sub] using key

/-- Far away the remainder vanishes: with `(Rein/d)² = g` fixed, the deflection relative to that of the origin tends to that of
an `ExternalShear` of strength `g` whose angle is a quarter turn from the direction of the mass. -/
theorem C111_limit (g phi x y : ℝ) (hg : 0 ≤ g) :
    Tendsto (fun d => (pointDeflection (d * cos phi) (d * sin phi) (√g * d) 0 x y).1 -
        (pointDeflection (d * cos phi) (d * sin phi) (√g * d) 0 0 0).1) atTop
      (𝓝 (shearDeflection 0 0 (gammaPhiToGamma1 g (phi + π / 2)) (gammaPhiToGamma2 g (phi + π / 2)) x y).1) ∧
    Tendsto (fun d => (pointDeflection (d * cos phi) (d * sin phi) (√g * d) 0 x y).2 -
        (pointDeflection (d * cos phi) (d * sin phi) (√g * d) 0 0 0).2) atTop
      (𝓝 (shearDeflection 0 0 (gammaPhiToGamma1 g (phi + π / 2)) (gammaPhiToGamma2 g (phi + π / 2)) x y).2) := by
  set r := √(x ^ 2 + y ^ 2) with hr
  have hr0 : 0 ≤ r := sqrt_nonneg _
  have hrsq : r ^ 2 = x ^ 2 + y ^ 2 := sq_sqrt (by positivity)
  have c2 : cos (2 * (phi + π / 2)) = -cos (2 * phi) := by rw [show 2 * (phi + π / 2) = 2 * phi + π by ring, cos_add_pi]
  have s2 : sin (2 * (phi + π / 2)) = -sin (2 * phi) := by rw [show 2 * (phi + π / 2) = 2 * phi + π by ring, sin_add_pi]
  have hlim : Tendsto (fun d : ℝ => g * (x ^ 2 + y ^ 2) / (d - r)) atTop (𝓝 0) :=
    tendsto_const_nhds.div_atTop (tendsto_atTop_add_const_right _ _ tendsto_id)
  have hbound : ∀ d, r < d → √(((pointDeflection (d * cos phi) (d * sin phi) (√g * d) 0 x y).1 -
        (pointDeflection (d * cos phi) (d * sin phi) (√g * d) 0 0 0).1 -
        (shearDeflection 0 0 (gammaPhiToGamma1 g (phi + π / 2)) (gammaPhiToGamma2 g (phi + π / 2)) x y).1) ^ 2 +
      ((pointDeflection (d * cos phi) (d * sin phi) (√g * d) 0 x y).2 -
        (pointDeflection (d * cos phi) (d * sin phi) (√g * d) 0 0 0).2 -
        (shearDeflection 0 0 (gammaPhiToGamma1 g (phi + π / 2)) (gammaPhiToGamma2 g (phi + π / 2)) x y).2) ^ 2) ≤
      g * (x ^ 2 + y ^ 2) / (d - r) := by
    intro d hd
    have hd0 : d ≠ 0 := by linarith
    have hdist : d - r ≤ √((x - d * cos phi) ^ 2 + (y - d * sin phi) ^ 2) := by
      apply le_sqrt_of_sq_le
      have hcs : x * cos phi + y * sin phi ≤ r := by
        rw [hr]
        apply le_sqrt_of_sq_le
        nlinarith [sq_nonneg (x * sin phi - y * cos phi), sin_sq_add_cos_sq phi]
      have h1 : (x - d * cos phi) ^ 2 + (y - d * sin phi) ^ 2 = r ^ 2 - 2 * d * (x * cos phi + y * sin phi) + d ^ 2 := by
        rw [hrsq]
        linear_combination d ^ 2 * sin_sq_add_cos_sq phi
      rw [h1]
      nlinarith
    have hxy : (x, y) ≠ (d * cos phi, d * sin phi) := by
      intro h
      obtain ⟨h1, h2⟩ := Prod.mk.inj h
      rw [← h1, ← h2] at hdist
      simp at hdist
      linarith
    have h := C111_remainder (√g * d) d phi x y hd0 hxy
    have hgd : (√g * d / d) ^ 2 = g := by rw [mul_div_cancel_right₀ _ hd0, sq_sqrt hg]
    simp only [hgd] at h
    simp only [gammaPhiToGamma1, gammaPhiToGamma2, c2, s2, mul_neg, ← neg_mul]
    rw [h]
    exact div_le_div_of_nonneg_left (by positivity) (by linarith) hdist
  constructor
  · rw [tendsto_iff_norm_sub_tendsto_zero]
    refine squeeze_zero' (Eventually.of_forall fun _ => norm_nonneg _) ?_ hlim
    filter_upwards [eventually_gt_atTop r] with d hd
    refine le_trans ?_ (hbound d hd)
    rw [norm_eq_abs]
    exact abs_le_sqrt (le_add_of_nonneg_right (sq_nonneg _))
  · rw [tendsto_iff_norm_sub_tendsto_zero]
    refine squeeze_zero' (Eventually.of_forall fun _ => norm_nonneg _) ?_ hlim
    filter_upwards [eventually_gt_atTop r] with d hd
    refine le_trans ?_ (hbound d hd)
    rw [norm_eq_abs]
    exact abs_le_sqrt (le_add_of_nonneg_left (sq_nonneg _))

/-- The same for the potential: less its value and its gradient at the origin, it tends to that of the `ExternalShear`. -/
theorem C111_potential (g phi x y : ℝ) (hg : 0 ≤ g) :
    Tendsto (fun d => pointPotential (d * cos phi) (d * sin phi) (√g * d) 0 x y -
        pointPotential (d * cos phi) (d * sin phi) (√g * d) 0 0 0 -
        ((pointDeflection (d * cos phi) (d * sin phi) (√g * d) 0 0 0).1 * x +
          (pointDeflection (d * cos phi) (d * sin phi) (√g * d) 0 0 0).2 * y)) atTop
      (𝓝 (shearPotential 0 0 (gammaPhiToGamma1 g (phi + π / 2)) (gammaPhiToGamma2 g (phi + π / 2)) x y)) := by
  obtain ⟨m, hm⟩ : ∃ m, m = x * cos phi + y * sin phi := ⟨_, rfl⟩
  obtain ⟨r2, hr2⟩ : ∃ r2, r2 = x ^ 2 + y ^ 2 := ⟨_, rfl⟩
  have c2 : cos (2 * (phi + π / 2)) = -cos (2 * phi) := by rw [show 2 * (phi + π / 2) = 2 * phi + π by ring, cos_add_pi]
  have s2 : sin (2 * (phi + π / 2)) = -sin (2 * phi) := by rw [show 2 * (phi + π / 2) = 2 * phi + π by ring, sin_add_pi]
  have hval : shearPotential 0 0 (gammaPhiToGamma1 g (phi + π / 2)) (gammaPhiToGamma2 g (phi + π / 2)) x y =
      g / 2 * (r2 - 2 * m ^ 2) := by
    simp only [shearPotential, translateRotate, gammaPhiToGamma1, gammaPhiToGamma2, c2, s2, sub_zero, cos_two_mul', sin_two_mul, hm,
      hr2]
    linear_combination (g / 2 * (x ^ 2 + y ^ 2)) * sin_sq_add_cos_sq phi
  rw [hval]
  -- everything as a function of `t = 1/d`
  have ht : Tendsto (fun d : ℝ => d⁻¹) atTop (𝓝 0) := tendsto_inv_atTop_zero
  have hx : Tendsto (fun d : ℝ => 2 * d⁻¹ * m - d⁻¹ ^ 2 * r2) atTop (𝓝 0) := by
    have := ((ht.const_mul 2).mul_const m).sub ((ht.pow 2).mul_const r2)
    simpa using this
  have hE : Tendsto (fun d : ℝ => g / 2 * (d⁻¹ * |2 * m - d⁻¹ * r2| ^ 3 / (1 - |2 * d⁻¹ * m - d⁻¹ ^ 2 * r2|))) atTop (𝓝 0) := by
    have h1 : Tendsto (fun d : ℝ => |2 * m - d⁻¹ * r2| ^ 3) atTop (𝓝 (|2 * m - 0 * r2| ^ 3)) :=
      ((tendsto_const_nhds.sub (ht.mul_const r2)).abs).pow 3
    have h2 : Tendsto (fun d : ℝ => 1 - |2 * d⁻¹ * m - d⁻¹ ^ 2 * r2|) atTop (𝓝 (1 - |0|)) := tendsto_const_nhds.sub hx.abs
    have h3 := ((ht.mul h1).div h2 (by norm_num)).const_mul (g / 2)
    simpa using h3
  have hM : Tendsto (fun d : ℝ => g / 2 * (r2 - 2 * m ^ 2) + (g * d⁻¹ * m * r2 - g * d⁻¹ ^ 2 * r2 ^ 2 / 4)) atTop
      (𝓝 (g / 2 * (r2 - 2 * m ^ 2))) := by
    have := (tendsto_const_nhds (x := g / 2 * (r2 - 2 * m ^ 2)) (f := atTop)).add
      ((((ht.const_mul g).mul_const m).mul_const r2).sub ((((ht.pow 2).const_mul g).mul_const (r2 ^ 2)).div_const 4))
    simpa using this
  have hdiff : ∀ᶠ d : ℝ in atTop, |(pointPotential (d * cos phi) (d * sin phi) (√g * d) 0 x y -
        pointPotential (d * cos phi) (d * sin phi) (√g * d) 0 0 0 -
        ((pointDeflection (d * cos phi) (d * sin phi) (√g * d) 0 0 0).1 * x +
          (pointDeflection (d * cos phi) (d * sin phi) (√g * d) 0 0 0).2 * y)) -
      (g / 2 * (r2 - 2 * m ^ 2) + (g * d⁻¹ * m * r2 - g * d⁻¹ ^ 2 * r2 ^ 2 / 4))| ≤
      g / 2 * (d⁻¹ * |2 * m - d⁻¹ * r2| ^ 3 / (1 - |2 * d⁻¹ * m - d⁻¹ ^ 2 * r2|)) := by
    filter_upwards [eventually_gt_atTop 0, hx.eventually (Metric.ball_mem_nhds 0 one_pos)] with d hd hw
    rw [dist_zero_right, norm_eq_abs] at hw
    have hlog := abs_log_sub_add_sum_range_le hw 2
    have h00 : √((0 - d * cos phi) ^ 2 + (0 - d * sin phi) ^ 2) = d := by
      rw [show (0 - d * cos phi) ^ 2 + (0 - d * sin phi) ^ 2 = d ^ 2 by linear_combination d ^ 2 * sin_sq_add_cos_sq phi]
      exact sqrt_sq hd.le
    have hsq : (x - d * cos phi) ^ 2 + (y - d * sin phi) ^ 2 = d ^ 2 * (1 - (2 * d⁻¹ * m - d⁻¹ ^ 2 * r2)) := by
      rw [hm, hr2]
      field_simp
      linear_combination d ^ 2 * sin_sq_add_cos_sq phi
    have hpos : 0 < 1 - (2 * d⁻¹ * m - d⁻¹ ^ 2 * r2) := by
      have := (abs_lt.1 hw).2
      linarith
    have hl : log √((x - d * cos phi) ^ 2 + (y - d * sin phi) ^ 2) - log d = 1 / 2 * log (1 - (2 * d⁻¹ * m - d⁻¹ ^ 2 * r2)) := by
      rw [log_sqrt (by positivity), hsq, log_mul (by positivity) hpos.ne', log_pow]
      push_cast
      ring
    have hR : (√g * d) ^ 2 = g * d ^ 2 := by rw [mul_pow, sq_sqrt hg]
    simp only [pointPotential, pointDeflection, translateRotate, add_zero, h00, hR, ← mul_sub, hl]
    have e1 : g * d ^ 2 * (1 / 2 * log (1 - (2 * d⁻¹ * m - d⁻¹ ^ 2 * r2))) -
        ((0 - d * cos phi) * (g * d ^ 2) / d ^ 2 * x + (0 - d * sin phi) * (g * d ^ 2) / d ^ 2 * y) -
        (g / 2 * (r2 - 2 * m ^ 2) + (g * d⁻¹ * m * r2 - g * d⁻¹ ^ 2 * r2 ^ 2 / 4)) =
        g / 2 * d ^ 2 * (∑ i ∈ Finset.range 2, (2 * d⁻¹ * m - d⁻¹ ^ 2 * r2) ^ (i + 1) / (i + 1) +
          log (1 - (2 * d⁻¹ * m - d⁻¹ ^ 2 * r2))) := by
      generalize log (1 - (2 * d⁻¹ * m - d⁻¹ ^ 2 * r2)) = l
      simp only [Finset.sum_range_succ, Finset.sum_range_zero, Nat.cast_zero, Nat.cast_one]
      have : (0 - d * cos phi) * (g * d ^ 2) / d ^ 2 * x + (0 - d * sin phi) * (g * d ^ 2) / d ^ 2 * y = -(g * d * m) := by
        rw [hm]
        field_simp
        ring
      rw [this]
      obtain ⟨t, htd⟩ : ∃ t, t = d⁻¹ := ⟨_, rfl⟩
      have h : d * t = 1 := by rw [htd]; exact mul_inv_cancel₀ hd.ne'
      rw [← htd]
      linear_combination (-(g * d * m) + (g / 2 * r2 - g * m ^ 2 + g * m * r2 * t - g / 4 * r2 ^ 2 * t ^ 2) * (d * t + 1)) * h
    rw [e1, abs_mul, abs_of_nonneg (by positivity)]
    refine (mul_le_mul_of_nonneg_left hlog (by positivity)).trans (le_of_eq ?_)
    have h5 : |2 * d⁻¹ * m - d⁻¹ ^ 2 * r2| = d⁻¹ * |2 * m - d⁻¹ * r2| := by
      rw [← abs_of_pos (inv_pos.2 hd), ← abs_mul, abs_of_pos (inv_pos.2 hd)]
      congr 1
      ring
    rw [h5]
    have h6 : d ^ 2 * d⁻¹ ^ 3 = d⁻¹ := by field_simp
    generalize |2 * m - d⁻¹ * r2| = A
    linear_combination (g / 2 * A ^ 3 / (1 - d⁻¹ * A)) * h6
  have h0 := squeeze_zero' (Eventually.of_forall fun _ => abs_nonneg _) hdiff hE
  have := ((tendsto_zero_iff_abs_tendsto_zero _).2 h0).add hM
  simpa using this

/-! ### Examples -/

/-- A mass on the positive x axis stretches images along the y axis: the shear component `gamma_1` is negative. -/
example (x y : ℝ) : Tendsto (fun d => (pointDeflection d 0 (√(1 / 10) * d) 0 x y).1 - (pointDeflection d 0 (√(1 / 10) * d) 0 0 0).1) atTop
    (𝓝 (-(1 / 10) * x)) := by
  have h := (C111_limit (1 / 10) 0 x y (by norm_num)).1
  simp only [cos_zero, sin_zero, mul_one, mul_zero, zero_add, gammaPhiToGamma1, gammaPhiToGamma2, shearDeflection, translateRotate,
    show 2 * (π / 2) = π by ring, cos_pi, sin_pi, sub_zero, zero_mul, add_zero] at h
  simpa using h

example := C111_remainder 1 10 0 1 1 (by norm_num) (by norm_num)
example := C111_potential (1 / 10) 1 2 3 (by norm_num)

end Caustics
