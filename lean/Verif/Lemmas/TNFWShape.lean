import Verif.Lemmas.TNFWTrunc
import Mathlib.MeasureTheory.Integral.Prod
import Mathlib.MeasureTheory.Measure.Lebesgue.Basic

/-! At a fixed total mass a smaller truncation radius concentrates a truncated NFW lens. -/

open Real Filter Topology MeasureTheory

namespace Caustics

/-- The density along the line of sight. -/
noncomputable def losRho (t R z : ℝ) : ℝ :=
  1 / (losR R z * (1 + losR R z) ^ 2) * (t ^ 2 / (t ^ 2 + losR R z ^ 2))

theorem losRho_pos {t R : ℝ} (hR : 0 < R) (ht : 0 < t) (z : ℝ) : 0 < losRho t R z := by
  have := losR_pos hR z
  unfold losRho
  positivity

theorem integrable_losRho {t R : ℝ} (hR : 0 < R) (ht : 0 < t) : Integrable (losRho t R) := by
  by_contra h
  have h1 := integral_los_tnfw hR ht
  have h2 : ∫ z, losRho t R z = 0 := integral_undef h
  have h3 := tnfwK_pos hR ht
  unfold losRho at h2
  rw [h2] at h1
  linarith

/-- The density falls off, and the more slowly the further out: its logarithm is convex in the square of the
radius. -/
theorem losRho_mul_le {t R R' z w : ℝ} (hR : 0 < R) (h : R < R') (ht : 0 < t) (hzw : w ^ 2 ≤ z ^ 2) :
    losRho t R' w * losRho t R z ≤ losRho t R' z * losRho t R w := by
  have hR' := hR.trans h
  have e : ∀ R z, losR R z ^ 2 = R ^ 2 + z ^ 2 := fun R z => sq_sqrt (by positivity)
  have p1 := losR_pos hR z; have p2 := losR_pos hR w; have p3 := losR_pos hR' z; have p4 := losR_pos hR' w
  have e1 := e R z; have e2 := e R w; have e3 := e R' z; have e4 := e R' w
  have hRR : R ^ 2 < R' ^ 2 := pow_lt_pow_left₀ h hR.le two_ne_zero
  unfold losRho
  generalize losR R z = a at *
  generalize losR R w = b at *
  generalize losR R' z = c at *
  generalize losR R' w = d at *
  -- `c b ≤ d a`, `c + b ≤ d + a`
  have hprod : c * b ≤ d * a := by
    refine le_of_sq_le_sq ?_ (by positivity)
    rw [mul_pow, mul_pow, e1, e2, e3, e4]
    nlinarith
  have hsum : c + b ≤ d + a := by
    refine le_of_sq_le_sq ?_ (by positivity)
    nlinarith
  have k1 : (1 + c) * (1 + b) ≤ (1 + d) * (1 + a) := by nlinarith
  have k2 : (t ^ 2 + c ^ 2) * (t ^ 2 + b ^ 2) ≤ (t ^ 2 + d ^ 2) * (t ^ 2 + a ^ 2) := by
    rw [e1, e2, e3, e4]; nlinarith
  have lhs : 1 / (d * (1 + d) ^ 2) * (t ^ 2 / (t ^ 2 + d ^ 2)) * (1 / (a * (1 + a) ^ 2) * (t ^ 2 / (t ^ 2 + a ^ 2)))
      = t ^ 4 / (d * a * ((1 + d) * (1 + a)) ^ 2 * ((t ^ 2 + d ^ 2) * (t ^ 2 + a ^ 2))) := by
    field_simp
  have rhs : 1 / (c * (1 + c) ^ 2) * (t ^ 2 / (t ^ 2 + c ^ 2)) * (1 / (b * (1 + b) ^ 2) * (t ^ 2 / (t ^ 2 + b ^ 2)))
      = t ^ 4 / (c * b * ((1 + c) * (1 + b)) ^ 2 * ((t ^ 2 + c ^ 2) * (t ^ 2 + b ^ 2))) := by
    field_simp
  rw [lhs, rhs]
  gcongr

/-- Another truncation multiplies the density by a factor that grows with the radius. -/
theorem losRho_tau {t t' R : ℝ} (hR : 0 < R) (ht : 0 < t) (ht' : 0 < t') (z : ℝ) :
    losRho t' R z = losRho t R z * (t' ^ 2 / t ^ 2 * ((t ^ 2 + (R ^ 2 + z ^ 2)) / (t' ^ 2 + (R ^ 2 + z ^ 2)))) := by
  have hr := losR_pos hR z
  have e : losR R z ^ 2 = R ^ 2 + z ^ 2 := sq_sqrt (by positivity)
  unfold losRho
  rw [← e]
  field_simp

theorem tau_factor_lt {t t' u v : ℝ} (ht : 0 < t) (h : t < t') (hu : 0 ≤ u) (huv : u < v) :
    t' ^ 2 / t ^ 2 * ((t ^ 2 + u) / (t' ^ 2 + u)) < t' ^ 2 / t ^ 2 * ((t ^ 2 + v) / (t' ^ 2 + v)) := by
  have ht' := ht.trans h
  have h2 : t ^ 2 < t' ^ 2 := pow_lt_pow_left₀ h ht.le two_ne_zero
  have hv : 0 ≤ v := hu.trans huv.le
  refine mul_lt_mul_of_pos_left ?_ (by positivity)
  rw [div_lt_div_iff₀ (by positivity) (by positivity)]
  nlinarith

theorem ratio_integrand {t t' R R' z w : ℝ} (hR : 0 < R) (hRR : R < R') (ht : 0 < t) (h : t < t') (hzw : w ^ 2 ≤ z ^ 2) :
    0 < losRho t' R' z * losRho t R w - losRho t R' z * losRho t' R w
      + (losRho t' R' w * losRho t R z - losRho t R' w * losRho t' R z) := by
  have ht' := ht.trans h
  have hR' := hR.trans hRR
  rw [losRho_tau hR' ht ht' z, losRho_tau hR ht ht' w, losRho_tau hR' ht ht' w, losRho_tau hR ht ht' z]
  have hle := losRho_mul_le hR hRR ht hzw
  have p := losRho_pos hR ht z
  have p' := losRho_pos hR' ht w
  have hR2 : R ^ 2 < R' ^ 2 := pow_lt_pow_left₀ hRR hR.le two_ne_zero
  have f1 := tau_factor_lt ht h (u := R ^ 2 + z ^ 2) (v := R' ^ 2 + z ^ 2) (by positivity) (by linarith)
  have f2 := tau_factor_lt ht h (u := R ^ 2 + w ^ 2) (v := R' ^ 2 + w ^ 2) (by positivity) (by linarith)
  have f3 := tau_factor_lt ht h (u := R ^ 2 + w ^ 2) (v := R' ^ 2 + z ^ 2) (by positivity) (by linarith)
  generalize losRho t R' z = F at *
  generalize losRho t R w = f at *
  generalize losRho t R' w = F' at *
  generalize losRho t R z = f' at *
  generalize t' ^ 2 / t ^ 2 * ((t ^ 2 + (R ^ 2 + z ^ 2)) / (t' ^ 2 + (R ^ 2 + z ^ 2))) = hz at *
  generalize t' ^ 2 / t ^ 2 * ((t ^ 2 + (R' ^ 2 + z ^ 2)) / (t' ^ 2 + (R' ^ 2 + z ^ 2))) = Hz at *
  generalize t' ^ 2 / t ^ 2 * ((t ^ 2 + (R ^ 2 + w ^ 2)) / (t' ^ 2 + (R ^ 2 + w ^ 2))) = hw at *
  generalize t' ^ 2 / t ^ 2 * ((t ^ 2 + (R' ^ 2 + w ^ 2)) / (t' ^ 2 + (R' ^ 2 + w ^ 2))) = Hw at *
  have hpos : 0 < F' * f' := mul_pos p' p
  have : 0 ≤ (F * f - F' * f') * (Hz - hw) := mul_nonneg (by linarith) (by linarith)
  nlinarith

/-- The ratio of two projected densities grows with the radius. -/
theorem tnfwK_ratio {t t' R R' : ℝ} (hR : 0 < R) (hRR : R < R') (ht : 0 < t) (h : t < t') :
    tnfwK t R' * tnfwK t' R < tnfwK t' R' * tnfwK t R := by
  have ht' := ht.trans h
  have hR' := hR.trans hRR
  have i1 := integrable_losRho hR ht; have i2 := integrable_losRho hR ht'
  have i3 := integrable_losRho hR' ht; have i4 := integrable_losRho hR' ht'
  have e : ∀ {t R}, 0 < R → 0 < t → ∫ z, losRho t R z = 2 * tnfwK t R := fun hR ht => integral_los_tnfw hR ht
  have a1 := i4.mul_prod i1
  have a2 := i3.mul_prod i2
  have a3 := i1.mul_prod i4
  have a4 := i2.mul_prod i3
  rw [← Measure.volume_eq_prod] at a1 a2 a3 a4
  have b1 : Integrable fun p : ℝ × ℝ => losRho t' R' p.1 * losRho t R p.2 - losRho t R' p.1 * losRho t' R p.2 := a1.sub a2
  have b2 : Integrable fun p : ℝ × ℝ => losRho t R p.1 * losRho t' R' p.2 - losRho t' R p.1 * losRho t R' p.2 := a3.sub a4
  have hint : ∫ p : ℝ × ℝ, (losRho t' R' p.1 * losRho t R p.2 - losRho t R' p.1 * losRho t' R p.2)
      + (losRho t R p.1 * losRho t' R' p.2 - losRho t' R p.1 * losRho t R' p.2)
      = 8 * (tnfwK t' R' * tnfwK t R - tnfwK t R' * tnfwK t' R) := by
    rw [integral_add b1 b2, integral_sub a1 a2, integral_sub a3 a4]
    simp only [Measure.volume_eq_prod]
    rw [integral_prod_mul, integral_prod_mul, integral_prod_mul, integral_prod_mul, e hR ht, e hR ht', e hR' ht, e hR' ht']
    ring
  have hpos : ∀ p : ℝ × ℝ, 0 < (losRho t' R' p.1 * losRho t R p.2 - losRho t R' p.1 * losRho t' R p.2)
      + (losRho t R p.1 * losRho t' R' p.2 - losRho t' R p.1 * losRho t R' p.2) := by
    rintro ⟨z, w⟩
    simp only
    rcases le_total (w ^ 2) (z ^ 2) with hzw | hzw
    · have := ratio_integrand hR hRR ht h hzw
      linarith
    · have := ratio_integrand hR hRR ht h hzw
      linarith
  have : 0 < ∫ p : ℝ × ℝ, (losRho t' R' p.1 * losRho t R p.2 - losRho t R' p.1 * losRho t' R p.2)
      + (losRho t R p.1 * losRho t' R' p.2 - losRho t' R p.1 * losRho t R' p.2) := by
    rw [integral_pos_iff_support_of_nonneg (fun p => (hpos p).le) (b1.add b2)]
    have : Function.support (fun p : ℝ × ℝ => (losRho t' R' p.1 * losRho t R p.2 - losRho t R' p.1 * losRho t' R p.2)
      + (losRho t R p.1 * losRho t' R' p.2 - losRho t' R p.1 * losRho t R' p.2)) = Set.univ := by
      ext p; simp only [Function.mem_support, Set.mem_univ, iff_true]; exact (hpos p).ne'
    rw [this]
    exact IsOpen.measure_pos _ isOpen_univ ⟨0, trivial⟩
  rw [hint] at this
  linarith

/-- Growth from a positive derivative, with one point where the derivative is not known. -/
theorem lt_of_deriv_pos_except {f f' : ℝ → ℝ} {a x y : ℝ} (hxy : x < y) (hc : ContinuousOn f (Set.Icc x y))
    (hd : ∀ z ∈ Set.Ioo x y, z ≠ a → HasDerivAt f (f' z) z) (hp : ∀ z ∈ Set.Ioo x y, z ≠ a → 0 < f' z) : f x < f y := by
  have step : ∀ u v, x ≤ u → v ≤ y → u < v → a ∉ Set.Ioo u v → f u < f v := by
    intro u v hu hv huv ha
    refine strictMonoOn_of_deriv_pos (convex_Icc u v) (hc.mono (Set.Icc_subset_Icc hu hv)) (fun z hz => ?_)
      (Set.left_mem_Icc.2 huv.le) (Set.right_mem_Icc.2 huv.le) huv
    rw [interior_Icc] at hz
    have hne : z ≠ a := fun e => ha (e ▸ hz)
    have hz' : z ∈ Set.Ioo x y := ⟨hu.trans_lt hz.1, hz.2.trans_le hv⟩
    rw [(hd z hz' hne).deriv]
    exact hp z hz' hne
  by_cases ha : a ∈ Set.Ioo x y
  · exact (step x a le_rfl ha.2.le ha.1 (by simp)).trans (step a y ha.1.le le_rfl ha.2 (by simp))
  · exact step x y le_rfl le_rfl hxy ha

/-- At a fixed total mass, the smaller the truncation radius, the more of the mass is inside any radius. -/
theorem tnfw_fraction_anti {t t' g : ℝ} (ht : 0 < t) (h : t < t') (hg : 0 < g) :
    tnfwMn t' g / tnfwTot t' < tnfwMn t g / tnfwTot t := by
  have ht' := ht.trans h
  have T := tnfwTot_pos ht
  have T' := tnfwTot_pos ht'
  set D : ℝ → ℝ := fun x => tnfwTot t' * tnfwMn t x - tnfwTot t * tnfwMn t' x with hD
  have hc : ∀ {s}, 0 < s → ContinuousOn (tnfwMn s) (Set.Ioi 0) := fun hs =>
    continuousOn_const.mul (continuousOn_tnfwMb hs)
  have hcD : ContinuousOn D (Set.Ioi 0) := (continuousOn_const.mul (hc ht)).sub (continuousOn_const.mul (hc ht'))
  have hd : ∀ x, 0 < x → x ≠ 1 →
      HasDerivAt D (x * (tnfwTot t' * tnfwK t x - tnfwTot t * tnfwK t' x)) x := fun x hx h1 =>
    (((hasDerivAt_tnfwMn ht hx h1).const_mul _).fun_sub ((hasDerivAt_tnfwMn ht' hx h1).const_mul _)).congr_deriv (by ring)
  have h0 : Tendsto D (𝓝[>] 0) (𝓝 0) := by
    have := ((tendsto_tnfwMn_zero ht).const_mul (tnfwTot t')).sub ((tendsto_tnfwMn_zero ht').const_mul (tnfwTot t))
    simpa using this
  have hinf : Tendsto D atTop (𝓝 0) := by
    have := ((tendsto_tnfwMn ht).const_mul (tnfwTot t')).sub ((tendsto_tnfwMn ht').const_mul (tnfwTot t))
    rwa [mul_comm (tnfwTot t'), sub_self] at this
  have hpos : 0 < D g := by
    by_cases hE : ∃ x, 0 < x ∧ x < g ∧ tnfwTot t' * tnfwK t x - tnfwTot t * tnfwK t' x ≤ 0
    · obtain ⟨x, hx, hxg, hxE⟩ := hE
      have hneg : ∀ y, x < y → tnfwTot t' * tnfwK t y - tnfwTot t * tnfwK t' y < 0 := by
        intro y hy
        have hr := tnfwK_ratio hx hy ht h
        have p1 := tnfwK_pos hx ht
        have p2 := tnfwK_pos (hx.trans hy) ht
        have q1 : tnfwTot t' * tnfwK t x * tnfwK t y ≤ tnfwTot t * tnfwK t' x * tnfwK t y :=
          mul_le_mul_of_nonneg_right (by linarith) p2.le
        have q2 : tnfwTot t * (tnfwK t y * tnfwK t' x) < tnfwTot t * (tnfwK t' y * tnfwK t x) :=
          mul_lt_mul_of_pos_left hr T
        have q3 : (tnfwTot t' * tnfwK t y) * tnfwK t x < (tnfwTot t * tnfwK t' y) * tnfwK t x := by nlinarith
        have := lt_of_mul_lt_mul_right q3 p1.le
        linarith
      have anti : ∀ u v, g ≤ u → u < v → D v < D u := by
        intro u v hu huv
        have := lt_of_deriv_pos_except (f := fun x => -D x)
          (f' := fun x => -(x * (tnfwTot t' * tnfwK t x - tnfwTot t * tnfwK t' x))) (a := 1) huv
          ((hcD.mono fun z hz => Set.mem_Ioi.2 (by have := hz.1; linarith)).neg)
          (fun z hz h1 => (hd z (by have := hz.1; linarith) h1).neg)
          (fun z hz _ => by
            have h2 := hneg z (by have := hz.1; linarith)
            have h3 : 0 < z := by have := hz.1; linarith
            nlinarith)
        linarith
      have hle : 0 ≤ D (g + 1) := by
        refine le_of_tendsto hinf ?_
        filter_upwards [eventually_gt_atTop (g + 1)] with y hy
        exact (anti (g + 1) y (by linarith) hy).le
      exact hle.trans_lt (anti g (g + 1) le_rfl (by linarith))
    · push Not at hE
      have mono : ∀ u v, 0 < u → u < v → v ≤ g → D u < D v := by
        intro u v hu huv hv
        refine lt_of_deriv_pos_except (f' := fun x => x * (tnfwTot t' * tnfwK t x - tnfwTot t * tnfwK t' x)) (a := 1) huv
          (hcD.mono fun z hz => Set.mem_Ioi.2 (hu.trans_le hz.1)) (fun z hz h1 => hd z (hu.trans hz.1) h1) fun z hz _ => ?_
        exact mul_pos (hu.trans hz.1) (hE z (hu.trans hz.1) (hz.2.trans_le hv))
      have hle : 0 ≤ D (g / 2) := by
        refine le_of_tendsto h0 ?_
        filter_upwards [Ioo_mem_nhdsGT (half_pos hg)] with y hy
        exact (mono y (g / 2) hy.1 hy.2 (by linarith)).le
      exact hle.trans_lt (mono (g / 2) g (half_pos hg) (by linarith) le_rfl)
  rw [div_lt_div_iff₀ T' T]
  simp only [hD] at hpos
  linarith

end Caustics
