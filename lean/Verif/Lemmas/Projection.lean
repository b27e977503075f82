import Verif.Lemmas.Halo
import Mathlib.Analysis.Calculus.Deriv.MeanValue
import Mathlib.MeasureTheory.Integral.IntegralEqImproper
import Mathlib.MeasureTheory.Measure.Lebesgue.Integral
import Mathlib.Analysis.SpecialFunctions.ImproperIntegrals

/-! Integrals along the line of sight of the density profiles of halo lenses. -/

open Real Filter Topology MeasureTheory

namespace Caustics

/-- Distance from the centre of the point at projected distance `R` and depth `z`. -/
noncomputable def losR (R z : ℝ) : ℝ := √(R ^ 2 + z ^ 2)

section
variable {R : ℝ}

theorem losR_pos (hR : 0 < R) (z : ℝ) : 0 < losR R z := by unfold losR; positivity

theorem losR_sq (R z : ℝ) : losR R z ^ 2 = R ^ 2 + z ^ 2 := sq_sqrt (by positivity)

theorem losR_abs (R z : ℝ) : losR R |z| = losR R z := by unfold losR; rw [sq_abs]

theorem losR_zero (hR : 0 < R) : losR R 0 = R := by
  unfold losR; rw [zero_pow two_ne_zero, add_zero, sqrt_sq hR.le]

theorem hasDerivAt_losR (hR : 0 < R) (z : ℝ) : HasDerivAt (losR R) (z / losR R z) z := by
  have h : HasDerivAt (fun z : ℝ => R ^ 2 + z ^ 2) (2 * z) z := by
    simpa using ((hasDerivAt_id z).pow 2).const_add (R ^ 2)
  refine (h.sqrt (by positivity)).congr_deriv ?_
  change 2 * z / (2 * losR R z) = _
  rw [mul_div_mul_left _ _ two_ne_zero]

theorem tendsto_losR_div (R : ℝ) : Tendsto (fun z => losR R z / z) atTop (𝓝 1) := by
  have h0 : Tendsto (fun z : ℝ => R ^ 2 * (z⁻¹) ^ 2 + 1) atTop (𝓝 1) := by
    have := ((tendsto_inv_atTop_zero (𝕜 := ℝ)).pow 2).const_mul (R ^ 2)
    simpa using this.add_const 1
  have h1 := h0.sqrt
  rw [sqrt_one] at h1
  refine h1.congr' ?_
  filter_upwards [eventually_gt_atTop 0] with z hz
  rw [losR, ← sqrt_sq (x := z) hz.le, ← sqrt_div (by positivity), sqrt_sq hz.le]
  congr 1
  field_simp

theorem tendsto_inv_z (c : ℝ) : Tendsto (fun z : ℝ => c * z⁻¹) atTop (𝓝 0) := by
  simpa using (tendsto_inv_atTop_zero (𝕜 := ℝ)).const_mul c

theorem tendsto_div_add_losR (R c : ℝ) : Tendsto (fun z => z / (c + losR R z)) atTop (𝓝 1) := by
  have h := ((tendsto_inv_z c).add (tendsto_losR_div R)).inv₀ (by norm_num)
  rw [zero_add, inv_one] at h
  refine h.congr' ?_
  filter_upwards [eventually_gt_atTop 0] with z hz
  rw [← div_eq_mul_inv, ← add_div, inv_div]

/-- Antiderivative of `1 / (r (1 + r))`. -/
noncomputable def losJ (R z : ℝ) : ℝ :=
  if R < 1 then log ((R ^ 2 + losR R z + √(1 - R ^ 2) * z) / (R * (1 + losR R z))) / √(1 - R ^ 2)
  else if 1 < R then arctan (√(R ^ 2 - 1) * (z / (R ^ 2 + losR R z))) / √(R ^ 2 - 1)
  else z / (1 + losR R z)

theorem losJ_zero (hR : 0 < R) : losJ R 0 = 0 := by
  unfold losJ
  rw [losR_zero hR]
  split_ifs
  · rw [mul_zero, add_zero, show R ^ 2 + R = R * (1 + R) by ring, div_self (by positivity), log_one,
      zero_div]
  · simp
  · simp

theorem hasDerivAt_div_add (hR : 0 < R) {c : ℝ} (hc : 0 ≤ c) (z : ℝ) :
    HasDerivAt (fun z => z / (c + losR R z))
      ((c * losR R z + R ^ 2) / (losR R z * (c + losR R z) ^ 2)) z := by
  have hr := losR_pos hR z
  have h := (hasDerivAt_id z).div ((hasDerivAt_losR hR z).const_add c) (by positivity)
  refine h.congr_deriv ?_
  have hs := losR_sq R z
  simp only [id]
  field_simp
  linear_combination hs

theorem losJ_arg_pos (hR : 0 < R) (h1 : R < 1) {z : ℝ} (hz : 0 ≤ z) :
    0 < R ^ 2 + losR R z + √(1 - R ^ 2) * z := by
  have := losR_pos hR z
  have := mul_nonneg (sqrt_nonneg (1 - R ^ 2)) hz
  positivity

theorem hasDerivAt_losJ (hR : 0 < R) {z : ℝ} (hz : 0 ≤ z) :
    HasDerivAt (losJ R) (1 / (losR R z * (1 + losR R z))) z := by
  have hr := losR_pos hR z
  have hs := losR_sq R z
  have hd := hasDerivAt_losR hR z
  rcases lt_trichotomy R 1 with h | h | h
  · obtain ⟨p, e⟩ := sqrt_one_sub_sq hR h
    have hJ : losJ R = fun z => log ((R ^ 2 + losR R z + √(1 - R ^ 2) * z) / (R * (1 + losR R z)))
        / √(1 - R ^ 2) := by
      funext z; rw [losJ, if_pos h]
    rw [hJ]
    have hA := losJ_arg_pos hR h hz
    set a := √(1 - R ^ 2)
    have h1 : HasDerivAt (fun z => R ^ 2 + losR R z + a * z) (z / losR R z + a) z := by
      refine ((hd.const_add (R ^ 2)).add ((hasDerivAt_id z).const_mul a)).congr_deriv ?_
      rw [mul_one]
    have h2 : HasDerivAt (fun z => R * (1 + losR R z)) (R * (z / losR R z)) z :=
      (hd.const_add 1).const_mul R
    have h3 := ((h1.div h2 (by positivity)).log (div_pos hA (by positivity)).ne').div_const a
    refine h3.congr_deriv ?_
    simp only [Pi.div_apply]
    generalize losR R z = r at *
    generalize hAe : R ^ 2 + r + a * z = A at *
    have hnum : (z + a * r) * (1 + r) - A * z = a * A := by
      rw [← hAe]
      linear_combination a * hs - z * e
    have hR0 := hR.ne'
    field_simp
    linear_combination hnum
  · subst h
    have hJ : losJ 1 = fun z => z / (1 + losR 1 z) := by
      funext z; rw [losJ, if_neg (lt_irrefl _), if_neg (lt_irrefl _)]
    rw [hJ]
    refine (hasDerivAt_div_add one_pos zero_le_one z).congr_deriv ?_
    field_simp
    ring
  · obtain ⟨p, e⟩ := sqrt_sq_sub_one h
    have hJ : losJ R = fun z => arctan (√(R ^ 2 - 1) * (z / (R ^ 2 + losR R z))) / √(R ^ 2 - 1) := by
      funext z; rw [losJ, if_neg (not_lt.2 h.le), if_pos h]
    rw [hJ]
    set b := √(R ^ 2 - 1)
    have h3 := (((hasDerivAt_div_add hR (sq_nonneg R) z).const_mul b).arctan).div_const b
    refine h3.congr_deriv ?_
    generalize losR R z = r at *
    have hkey : (R ^ 2 + r) ^ 2 + b ^ 2 * z ^ 2 = R ^ 2 * (1 + r) ^ 2 := by
      rw [e]; linear_combination (1 - R ^ 2) * hs
    have hC : (0 : ℝ) < R ^ 2 + r := by positivity
    generalize R ^ 2 + r = C at *
    have e1 : 1 + (b * (z / C)) ^ 2 = R ^ 2 * (1 + r) ^ 2 / C ^ 2 := by
      rw [← hkey]; field_simp
    rw [e1]
    field_simp
    ring

theorem tendsto_losJ (hR : 0 < R) : Tendsto (losJ R) atTop (𝓝 (ringF R)) := by
  rcases lt_trichotomy R 1 with h | h | h
  · obtain ⟨p, e⟩ := sqrt_one_sub_sq hR h
    rw [ringF_lt h]
    set a := √(1 - R ^ 2) with ha
    have hlim : arcosh (1 / R) = log ((1 + a) / R) := by
      rw [arcosh]
      congr 1
      have : √((1 / R) ^ 2 - 1) = a / R := by
        rw [show (1 / R) ^ 2 - 1 = (a / R) ^ 2 by rw [div_pow, div_pow, e]; field_simp]
        exact sqrt_sq (by positivity)
      rw [this]; field_simp
    rw [hlim]
    have h1 : Tendsto (fun z => (R ^ 2 * z⁻¹ + losR R z / z + a) / (R * (1 * z⁻¹ + losR R z / z))) atTop
        (𝓝 ((0 + 1 + a) / (R * (0 + 1)))) :=
      (((tendsto_inv_z _).add (tendsto_losR_div R)).add_const a).div
        (((tendsto_inv_z 1).add (tendsto_losR_div R)).const_mul R) (by rw [zero_add, mul_one]; exact hR.ne')
    rw [zero_add, mul_one] at h1
    have h2 := (h1.log (by positivity)).div_const a
    refine h2.congr' ?_
    filter_upwards [eventually_gt_atTop 0] with z hz
    rw [losJ, if_pos h, ← ha]
    congr 2
    have hr := losR_pos hR z
    field_simp
  · subst h
    have hF : ringF 1 = 1 := by rw [ringF, if_neg (lt_irrefl _), if_neg (lt_irrefl _)]
    rw [hF]
    refine (tendsto_div_add_losR 1 1).congr fun z => ?_
    rw [losJ, if_neg (lt_irrefl _), if_neg (lt_irrefl _)]
  · obtain ⟨p, e⟩ := sqrt_sq_sub_one h
    rw [ringF_gt h]
    set b := √(R ^ 2 - 1) with hb
    have hlim : arccos (1 / R) = arctan (b * 1) := by
      rw [arccos_eq_arctan (by positivity)]
      congr 1
      rw [show 1 - (1 / R) ^ 2 = (b / R) ^ 2 by rw [div_pow, div_pow, e]; field_simp]
      rw [sqrt_sq (by positivity)]
      field_simp
    rw [hlim]
    have h1 := (continuous_arctan.tendsto _).comp ((tendsto_div_add_losR R (R ^ 2)).const_mul b)
    refine (h1.div_const b).congr fun z => ?_
    rw [losJ, if_neg (not_lt.2 h.le), if_pos h]
    rfl

/-- Antiderivative of `1 / (r (1 + r)²)`. -/
noncomputable def losG (R z : ℝ) : ℝ :=
  if R = 1 then z / (1 + losR R z) / 2 - (z / (1 + losR R z)) ^ 3 / 6
  else (losJ R z - z / (1 + losR R z)) / (1 - R ^ 2)

/-- Half the integral of `1 / (r (1 + r)²)` along the line of sight. -/
noncomputable def ringG (R : ℝ) : ℝ := if R = 1 then 1 / 3 else (1 - ringF R) / (R ^ 2 - 1)

theorem sq_ne_one (hR : 0 < R) (h : R ≠ 1) : 1 - R ^ 2 ≠ 0 := by
  intro h0
  have : (1 - R) * (1 + R) = 0 := by linear_combination h0
  rcases mul_eq_zero.1 this with h' | h'
  · exact h (by linarith)
  · linarith

theorem losG_zero (hR : 0 < R) : losG R 0 = 0 := by
  unfold losG
  split_ifs <;> simp [losJ_zero hR]

theorem hasDerivAt_losG (hR : 0 < R) {z : ℝ} (hz : 0 ≤ z) :
    HasDerivAt (losG R) (1 / (losR R z * (1 + losR R z) ^ 2)) z := by
  have hr := losR_pos hR z
  have hs := losR_sq R z
  have hq := hasDerivAt_div_add hR zero_le_one z
  by_cases h : R = 1
  · have hG : losG R = fun z => z / (1 + losR R z) / 2 - (z / (1 + losR R z)) ^ 3 / 6 := by
      funext z; rw [losG, if_pos h]
    rw [hG]
    refine ((hq.div_const 2).sub ((hq.pow 3).div_const 6)).congr_deriv ?_
    subst h
    generalize losR 1 z = r at *
    have : (1 : ℝ) + r ≠ 0 := by positivity
    have hz2 : z ^ 2 = (r - 1) * (r + 1) := by linear_combination -hs
    have e1 : (z / (1 + r)) ^ (3 - 1) = (r - 1) / (r + 1) := by
      rw [show 3 - 1 = 2 from rfl, div_pow, hz2]
      field_simp
      ring
    rw [e1]
    push_cast
    field_simp
    ring
  · have hG : losG R = fun z => (losJ R z - z / (1 + losR R z)) / (1 - R ^ 2) := by
      funext z; rw [losG, if_neg h]
    rw [hG]
    refine (((hasDerivAt_losJ hR hz).sub hq).div_const _).congr_deriv ?_
    have := sq_ne_one hR h
    field_simp
    ring

theorem tendsto_losG (hR : 0 < R) : Tendsto (losG R) atTop (𝓝 (ringG R)) := by
  have hq := tendsto_div_add_losR R 1
  by_cases h : R = 1
  · have hG : losG R = fun z => z / (1 + losR R z) / 2 - (z / (1 + losR R z)) ^ 3 / 6 := by
      funext z; rw [losG, if_pos h]
    rw [hG, ringG, if_pos h]
    have := (hq.div_const 2).sub ((hq.pow 3).div_const 6)
    norm_num at this ⊢
    exact this
  · have hG : losG R = fun z => (losJ R z - z / (1 + losR R z)) / (1 - R ^ 2) := by
      funext z; rw [losG, if_neg h]
    rw [hG, ringG, if_neg h]
    have := ((tendsto_losJ hR).sub hq).div_const (1 - R ^ 2)
    rwa [show (ringF R - 1) / (1 - R ^ 2) = (1 - ringF R) / (R ^ 2 - 1) by
      rw [← neg_div_neg_eq, neg_sub, neg_sub]] at this

/-- Antiderivative of `1 / (r (t² + r²))`. -/
noncomputable def losK (R t z : ℝ) : ℝ :=
  log ((√(t ^ 2 + R ^ 2) * losR R z + t * z) / (R * √(losR R z ^ 2 + t ^ 2))) / (t * √(t ^ 2 + R ^ 2))

theorem losK_zero (hR : 0 < R) (t : ℝ) : losK R t 0 = 0 := by
  unfold losK
  rw [losR_zero hR, mul_zero, add_zero, add_comm (t ^ 2), mul_comm, div_self, log_one, zero_div]
  positivity

theorem hasDerivAt_losK (hR : 0 < R) {t : ℝ} (ht : 0 < t) {z : ℝ} (hz : 0 ≤ z) :
    HasDerivAt (losK R t) (1 / (losR R z * (t ^ 2 + losR R z ^ 2))) z := by
  have hr := losR_pos hR z
  have hs := losR_sq R z
  have hd := hasDerivAt_losR hR z
  have hw : 0 < √(t ^ 2 + R ^ 2) := by positivity
  have hw2 : √(t ^ 2 + R ^ 2) ^ 2 = t ^ 2 + R ^ 2 := sq_sqrt (by positivity)
  unfold losK
  generalize √(t ^ 2 + R ^ 2) = w at *
  have h1 : HasDerivAt (fun z => w * losR R z + t * z) (w * (z / losR R z) + t) z := by
    refine ((hd.const_mul w).add ((hasDerivAt_id z).const_mul t)).congr_deriv ?_
    rw [mul_one]
  have h2 : HasDerivAt (fun z => R * √(losR R z ^ 2 + t ^ 2))
      (R * (z / √(losR R z ^ 2 + t ^ 2))) z := by
    have h0 : losR R z ^ 2 + t ^ 2 ≠ 0 := by positivity
    refine (((hd.pow 2).add_const (t ^ 2)).sqrt h0).const_mul R |>.congr_deriv ?_
    simp only [Pi.pow_apply, Nat.add_one_sub_one, pow_one, Nat.cast_ofNat]
    field_simp
  have hA : 0 < w * losR R z + t * z := by positivity
  have h3 := ((h1.div h2 (by positivity)).log (div_pos hA (by positivity)).ne').div_const (t * w)
  refine h3.congr_deriv ?_
  have hu2 : √(losR R z ^ 2 + t ^ 2) ^ 2 = losR R z ^ 2 + t ^ 2 := sq_sqrt (by positivity)
  have hu : 0 < √(losR R z ^ 2 + t ^ 2) := by positivity
  simp only [Pi.div_apply]
  generalize √(losR R z ^ 2 + t ^ 2) = u at *
  generalize losR R z = r at *
  rw [add_comm (t ^ 2), ← hu2]
  generalize hAe : w * r + t * z = A at *
  have hnum : (w * z + t * r) * u ^ 2 - A * (z * r) = t * w * A := by
    rw [← hAe, hu2]
    linear_combination (-t * r) * hw2 + t * r * hs
  field_simp
  linear_combination hnum

theorem tendsto_losK (hR : 0 < R) {t : ℝ} (ht : 0 < t) :
    Tendsto (losK R t) atTop (𝓝 (-tnfwL R t / (t * √(t ^ 2 + R ^ 2)))) := by
  have hw : 0 < √(t ^ 2 + R ^ 2) := by positivity
  have hL : -tnfwL R t = log ((√(t ^ 2 + R ^ 2) * 1 + t) / (R * √(1 ^ 2 + t ^ 2 * 0 ^ 2))) := by
    rw [tnfwL, ← log_inv, inv_div]
    norm_num [add_comm]
  rw [hL]
  have hq := tendsto_losR_div R
  have h1 := ((hq.const_mul (√(t ^ 2 + R ^ 2))).add_const t).div
    (((hq.pow 2).add (((tendsto_inv_atTop_zero (𝕜 := ℝ)).pow 2).const_mul (t ^ 2))).sqrt.const_mul R)
    (by norm_num; exact hR.ne')
  refine ((h1.log ?_).div_const _).congr' ?_
  · norm_num; constructor <;> positivity
  · filter_upwards [eventually_gt_atTop 0] with z hz
    rw [losK]
    congr 2
    have hr := losR_pos hR z
    have : √((losR R z / z) ^ 2 + t ^ 2 * z⁻¹ ^ 2) = √(losR R z ^ 2 + t ^ 2) / z := by
      rw [show (losR R z / z) ^ 2 + t ^ 2 * z⁻¹ ^ 2 = (losR R z ^ 2 + t ^ 2) / z ^ 2 by
        field_simp, sqrt_div (by positivity), sqrt_sq hz.le]
    simp only [Pi.div_apply]
    rw [this]
    field_simp

/-- Antiderivative of `1 / (t² + r²)`. -/
noncomputable def losA (R t z : ℝ) : ℝ := arctan (z / √(t ^ 2 + R ^ 2)) / √(t ^ 2 + R ^ 2)

theorem hasDerivAt_losA (hR : 0 < R) (t z : ℝ) :
    HasDerivAt (losA R t) (1 / (t ^ 2 + losR R z ^ 2)) z := by
  have hw : 0 < √(t ^ 2 + R ^ 2) := by positivity
  have hw2 : √(t ^ 2 + R ^ 2) ^ 2 = t ^ 2 + R ^ 2 := sq_sqrt (by positivity)
  have h := (((hasDerivAt_id z).div_const (√(t ^ 2 + R ^ 2))).arctan).div_const (√(t ^ 2 + R ^ 2))
  refine h.congr_deriv ?_
  rw [losR_sq, show t ^ 2 + (R ^ 2 + z ^ 2) = √(t ^ 2 + R ^ 2) ^ 2 + z ^ 2 by rw [hw2]; ring]
  generalize √(t ^ 2 + R ^ 2) = w at *
  simp only [id]
  field_simp

theorem tendsto_losA (hR : 0 < R) (t : ℝ) :
    Tendsto (losA R t) atTop (𝓝 (π / 2 / √(t ^ 2 + R ^ 2))) := by
  have hw : 0 < √(t ^ 2 + R ^ 2) := by positivity
  exact ((tendsto_nhds_of_tendsto_nhdsWithin tendsto_arctan_atTop).comp
    (tendsto_id.atTop_div_const hw)).div_const _

/-- An even non-negative function along the whole line of sight. -/
theorem integral_los {g F : ℝ → ℝ} {l : ℝ} (hF : ∀ z, 0 ≤ z → HasDerivAt F (g z) z)
    (hg : ∀ z, 0 ≤ z → 0 ≤ g z) (h0 : F 0 = 0) (hl : Tendsto F atTop (𝓝 l)) (he : ∀ z, g |z| = g z) :
    ∫ z, g z = 2 * l := by
  have h1 := integral_comp_abs (f := g)
  simp only [he] at h1
  rw [h1, integral_Ioi_of_hasDerivAt_of_nonneg' (g := F) (l := l) (fun z hz => hF z hz)
    (fun z hz => hg z (le_of_lt hz)) hl, h0, sub_zero]

theorem integral_los_nfw (hR : 0 < R) :
    ∫ z, 1 / (losR R z * (1 + losR R z) ^ 2) = 2 * ringG R :=
  integral_los (fun _ hz => hasDerivAt_losG hR hz) (fun z _ => by have := losR_pos hR z; positivity)
    (losG_zero hR) (tendsto_losG hR) fun z => by rw [losR_abs]

/-- Along the line of sight, pointwise smaller integrands have strictly smaller integrals. -/
theorem los_lt {g g' F F' : ℝ → ℝ} {l l' : ℝ} (hF : ∀ z, 0 ≤ z → HasDerivAt F (g z) z)
    (hF' : ∀ z, 0 ≤ z → HasDerivAt F' (g' z) z) (hlt : ∀ z, 0 ≤ z → g z < g' z) (h0 : F 0 = F' 0)
    (hl : Tendsto F atTop (𝓝 l)) (hl' : Tendsto F' atTop (𝓝 l')) : l < l' := by
  have hD : ∀ z, 0 ≤ z → HasDerivAt (fun z => F' z - F z) (g' z - g z) z :=
    fun z hz => (hF' z hz).sub (hF z hz)
  have hmono : StrictMonoOn (fun z => F' z - F z) (Set.Ici 0) := by
    refine strictMonoOn_of_deriv_pos (convex_Ici 0)
      (fun z hz => (hD z hz).continuousAt.continuousWithinAt) fun z hz => ?_
    rw [interior_Ici] at hz
    rw [(hD z (le_of_lt hz)).deriv]
    exact sub_pos.2 (hlt z (le_of_lt hz))
  have h1 : 0 < F' 1 - F 1 := by
    have := hmono (Set.mem_Ici.2 le_rfl) (Set.mem_Ici.2 zero_le_one) one_pos
    simp only [h0, sub_self] at this
    exact this
  have h2 : F' 1 - F 1 ≤ l' - l := by
    refine ge_of_tendsto (hl'.sub hl) ?_
    filter_upwards [eventually_ge_atTop 1] with z hz
    exact hmono.monotoneOn (Set.mem_Ici.2 zero_le_one) (Set.mem_Ici.2 (by linarith)) hz
  linarith

/-- Antiderivative of the truncated profile. -/
noncomputable def losT (t R z : ℝ) : ℝ :=
  t ^ 2 / (t ^ 2 + 1) ^ 2 * ((t ^ 2 + 1) * losG R z + 2 * losJ R z
      - 2 * losA R t z + (1 - t ^ 2) * losK R t z)

/-- Half the integral of the truncated profile. -/
noncomputable def tnfwK (t R : ℝ) : ℝ :=
  t ^ 2 / (t ^ 2 + 1) ^ 2 * ((t ^ 2 + 1) * ringG R + 2 * ringF R - π / √(t ^ 2 + R ^ 2)
        + (t ^ 2 - 1) * tnfwL R t / (t * √(t ^ 2 + R ^ 2)))

theorem losT_zero (hR : 0 < R) (t : ℝ) : losT t R 0 = 0 := by
  simp [losT, losG_zero hR, losJ_zero hR, losK_zero hR, losA]

theorem hasDerivAt_losT (hR : 0 < R) {t : ℝ} (ht : 0 < t) {z : ℝ} (hz : 0 ≤ z) :
    HasDerivAt (losT t R) (1 / (losR R z * (1 + losR R z) ^ 2) * (t ^ 2 / (t ^ 2 + losR R z ^ 2))) z := by
  have h := (((((hasDerivAt_losG hR hz).const_mul (t ^ 2 + 1)).add ((hasDerivAt_losJ hR hz).const_mul 2)).sub
      ((hasDerivAt_losA hR t z).const_mul 2)).add ((hasDerivAt_losK hR ht hz).const_mul (1 - t ^ 2))).const_mul
      (t ^ 2 / (t ^ 2 + 1) ^ 2)
  refine h.congr_deriv ?_
  have hr := losR_pos hR z
  generalize losR R z = r at *
  field_simp
  ring

theorem tendsto_losT (hR : 0 < R) {t : ℝ} (ht : 0 < t) :
    Tendsto (losT t R) atTop (𝓝 (tnfwK t R)) := by
  have h := (((((tendsto_losG hR).const_mul (t ^ 2 + 1)).add ((tendsto_losJ hR).const_mul 2)).sub
      ((tendsto_losA hR t).const_mul 2)).add ((tendsto_losK hR ht).const_mul (1 - t ^ 2))).const_mul
      (t ^ 2 / (t ^ 2 + 1) ^ 2)
  unfold tnfwK losT
  convert h using 2
  ring

theorem integral_los_tnfw (hR : 0 < R) {t : ℝ} (ht : 0 < t) :
    ∫ z, 1 / (losR R z * (1 + losR R z) ^ 2) * (t ^ 2 / (t ^ 2 + losR R z ^ 2)) = 2 * tnfwK t R :=
  integral_los (fun _ hz => hasDerivAt_losT hR ht hz) (fun z _ => by have := losR_pos hR z; positivity)
    (losT_zero hR t) (tendsto_losT hR ht) fun z => by rw [losR_abs]

theorem tnfwK_pos (hR : 0 < R) {t : ℝ} (ht : 0 < t) : 0 < tnfwK t R :=
  los_lt (g := fun _ => 0) (F := fun _ => 0) (fun z _ => hasDerivAt_const z 0)
    (fun _ hz => hasDerivAt_losT hR ht hz) (fun z _ => by have := losR_pos hR z; positivity)
    (losT_zero hR t).symm tendsto_const_nhds (tendsto_losT hR ht)

theorem losR_lt {R R' : ℝ} (hR : 0 < R) (h : R < R') (z : ℝ) : losR R z < losR R' z :=
  Real.sqrt_lt_sqrt (by positivity) (by have := pow_lt_pow_left₀ h hR.le two_ne_zero; linarith)

theorem tnfwK_anti {R' : ℝ} (hR : 0 < R) (h : R < R') {t : ℝ} (ht : 0 < t) : tnfwK t R' < tnfwK t R := by
  refine los_lt (fun _ hz => hasDerivAt_losT (hR.trans h) ht hz) (fun _ hz => hasDerivAt_losT hR ht hz)
    (fun z _ => ?_) ((losT_zero (hR.trans h) t).trans (losT_zero hR t).symm) (tendsto_losT (hR.trans h) ht)
    (tendsto_losT hR ht)
  have hr := losR_pos hR z
  have hr' := losR_pos (hR.trans h) z
  have hlt := losR_lt hR h z
  gcongr

/-- Along a line of sight through or beside a cored profile. -/
theorem hasDerivAt_losB {t : ℝ} (ht : 0 < t) (R z : ℝ) :
    HasDerivAt (losA R t) (1 / (t ^ 2 + losR R z ^ 2)) z := by
  have hw : 0 < √(t ^ 2 + R ^ 2) := by positivity
  have hw2 : √(t ^ 2 + R ^ 2) ^ 2 = t ^ 2 + R ^ 2 := sq_sqrt (by positivity)
  have h := (((hasDerivAt_id z).div_const (√(t ^ 2 + R ^ 2))).arctan).div_const (√(t ^ 2 + R ^ 2))
  refine h.congr_deriv ?_
  rw [losR_sq, show t ^ 2 + (R ^ 2 + z ^ 2) = √(t ^ 2 + R ^ 2) ^ 2 + z ^ 2 by rw [hw2]; ring]
  generalize √(t ^ 2 + R ^ 2) = w at *
  simp only [id]
  field_simp

theorem integral_los_pj {a b : ℝ} (ha : 0 < a) (hb : 0 < b) (hab : a ≠ b) (R : ℝ) :
    ∫ z, 1 / ((a ^ 2 + losR R z ^ 2) * (b ^ 2 + losR R z ^ 2)) =
      π / (b ^ 2 - a ^ 2) * (1 / √(a ^ 2 + R ^ 2) - 1 / √(b ^ 2 + R ^ 2)) := by
  have hne : b ^ 2 - a ^ 2 ≠ 0 := by
    intro h0
    have : (b - a) * (b + a) = 0 := by linear_combination h0
    rcases mul_eq_zero.1 this with h | h
    · exact hab (by linarith)
    · linarith
  have lim : ∀ t : ℝ, 0 < t → Tendsto (losA R t) atTop (𝓝 (π / 2 / √(t ^ 2 + R ^ 2))) := by
    intro t ht
    have hw : 0 < √(t ^ 2 + R ^ 2) := by positivity
    exact ((tendsto_nhds_of_tendsto_nhdsWithin tendsto_arctan_atTop).comp
      (tendsto_id.atTop_div_const hw)).div_const _
  rw [integral_los (F := fun z => (losA R a z - losA R b z) / (b ^ 2 - a ^ 2))
    (l := (π / 2 / √(a ^ 2 + R ^ 2) - π / 2 / √(b ^ 2 + R ^ 2)) / (b ^ 2 - a ^ 2)) (fun z _ => ?_)
    (fun z _ => by positivity) (by simp [losA]) (((lim a ha).sub (lim b hb)).div_const _)
    fun z => by rw [losR_abs]]
  · ring
  · refine (((hasDerivAt_losB ha R z).sub (hasDerivAt_losB hb R z)).div_const _).congr_deriv ?_
    have h1 : 0 < a ^ 2 + losR R z ^ 2 := by positivity
    have h2 : 0 < b ^ 2 + losR R z ^ 2 := by positivity
    field_simp
    ring

theorem integral_los_iso (hR : 0 < R) : ∫ z, 1 / losR R z ^ 2 = π / R := by
  have h := integral_los (fun z _ => hasDerivAt_losA hR 0 z) (fun z _ => by positivity)
    (by simp [losA]) (tendsto_losA hR 0) fun z => by rw [losR_abs]
  have e : √((0 : ℝ) ^ 2 + R ^ 2) = R := by
    rw [zero_pow two_ne_zero, zero_add, sqrt_sq hR.le]
  rw [e] at h
  calc ∫ z, 1 / losR R z ^ 2 = ∫ z, 1 / ((0 : ℝ) ^ 2 + losR R z ^ 2) := by
        congr 1; funext z; rw [zero_pow two_ne_zero, zero_add]
    _ = 2 * (π / 2 / R) := h
    _ = π / R := by ring

end

end Caustics
