import Verif.Lemmas.RoundSIE
import Mathlib.Topology.Order.Basic
import Mathlib.Topology.MetricSpace.Basic

/-! C125: the isothermal ellipsoid of axis ratio 1. -/

namespace Caustics

open Real Filter Topology

/-- The isothermal sphere with a core of size `s`: surface density `Rein / (2 sqrt(r^2 + s^2))`. -/
noncomputable def isoSphere (x0 y0 Rein s x y : ℝ) : ℝ × ℝ :=
  (Rein * (x - x0) / (√((x - x0) ^ 2 + (y - y0) ^ 2 + s ^ 2) + s),
    Rein * (y - y0) / (√((x - x0) ^ 2 + (y - y0) ^ 2 + s ^ 2) + s))

/-- Length of the difference of two deflections. -/
noncomputable def gap (a b : ℝ × ℝ) : ℝ := √((a.1 - b.1) ^ 2 + (a.2 - b.2) ^ 2)

theorem sieQ_of_ne {q : ℝ} (h : q ≠ 1) : sieQ q = q := if_neg h

theorem sieQ_one : sieQ 1 = 1 - 1e-6 := if_pos rfl

theorem sie_gap (x0 y0 q phi Rein s x y : ℝ) (hq : 1 / 2 ≤ sieQ q) (hq1 : sieQ q < 1) (hR : 0 ≤ Rein) (hs : 0 ≤ s)
    (h : 0 < (x - x0) ^ 2 + (y - y0) ^ 2 ∨ 0 < s) :
    gap (sieDeflection x0 y0 q phi Rein s x y) (isoSphere x0 y0 Rein s x y) ≤ 12 * Rein * (1 - sieQ q) := by
  have hc := sin_sq_add_cos_sq phi
  set Q := sieQ q with hQ
  set X := (x - x0) * cos phi + (y - y0) * sin phi with hX
  set Y := (y - y0) * cos phi - (x - x0) * sin phi with hY
  have hr : (x - x0) ^ 2 + (y - y0) ^ 2 = X ^ 2 + Y ^ 2 := by
    rw [hX, hY]
    linear_combination (-(x - x0) ^ 2 - (y - y0) ^ 2) * hc
  have hpos : 0 < X ^ 2 + Y ^ 2 + s ^ 2 := by
    rw [← hr]
    rcases h with h | h
    · have : 0 < (x - x0) ^ 2 + (y - y0) ^ 2 := h
      positivity
    · positivity
  have ex := round_x hq hq1 hs hpos
  have ey := round_y hq hq1 hs hpos
  set A := √Q / √(1 - Q ^ 2) * arctan (√(1 - Q ^ 2) * X / (√(Q ^ 2 * (X ^ 2 + s ^ 2) + Y ^ 2) + s)) with hA
  set B := √Q / √(1 - Q ^ 2) * artanh (√(1 - Q ^ 2) * Y / (√(Q ^ 2 * (X ^ 2 + s ^ 2) + Y ^ 2) + Q ^ 2 * s)) with hB
  set D := √(X ^ 2 + Y ^ 2 + s ^ 2) + s with hD
  have e1 : sieDeflection x0 y0 q phi Rein s x y
      = (Rein * A * cos phi - Rein * B * sin phi, Rein * A * sin phi + Rein * B * cos phi) := by
    simp only [sieDeflection, translateRotate, derotate, ← hQ, ← hX, ← hY, hA, hB, mul_div_assoc, mul_assoc]
  have e2 : isoSphere x0 y0 Rein s x y = (Rein * (X / D) * cos phi - Rein * (Y / D) * sin phi,
      Rein * (X / D) * sin phi + Rein * (Y / D) * cos phi) := by
    simp only [isoSphere, hr, hX, hY]
    refine Prod.ext ?_ ?_
    · show Rein * (x - x0) / D = _
      linear_combination (-(Rein * (x - x0) / D)) * hc
    · show Rein * (y - y0) / D = _
      linear_combination (-(Rein * (y - y0) / D)) * hc
  have e3 : (sieDeflection x0 y0 q phi Rein s x y).1 - (isoSphere x0 y0 Rein s x y).1
      = Rein * (A - X / D) * cos phi - Rein * (B - Y / D) * sin phi := by
    rw [e1, e2]; ring
  have e4 : (sieDeflection x0 y0 q phi Rein s x y).2 - (isoSphere x0 y0 Rein s x y).2
      = Rein * (A - X / D) * sin phi + Rein * (B - Y / D) * cos phi := by
    rw [e1, e2]; ring
  have hg : 0 ≤ 1 - Q := by linarith
  unfold gap
  rw [e3, e4]
  apply sqrt_le_iff.2
  refine ⟨by positivity, ?_⟩
  have e5 : (Rein * (A - X / D) * cos phi - Rein * (B - Y / D) * sin phi) ^ 2
      + (Rein * (A - X / D) * sin phi + Rein * (B - Y / D) * cos phi) ^ 2
      = Rein ^ 2 * ((A - X / D) ^ 2 + (B - Y / D) ^ 2) := by
    linear_combination (Rein ^ 2 * ((A - X / D) ^ 2 + (B - Y / D) ^ 2)) * hc
  have hx2 : (A - X / D) ^ 2 ≤ (10 * (1 - Q)) ^ 2 := by
    rw [← sq_abs]; exact pow_le_pow_left₀ (abs_nonneg _) ex 2
  have hy2 : (B - Y / D) ^ 2 ≤ (6 * (1 - Q)) ^ 2 := by
    rw [← sq_abs]; exact pow_le_pow_left₀ (abs_nonneg _) ey 2
  rw [e5]
  have : Rein ^ 2 * ((A - X / D) ^ 2 + (B - Y / D) ^ 2) ≤ Rein ^ 2 * ((10 * (1 - Q)) ^ 2 + (6 * (1 - Q)) ^ 2) :=
    mul_le_mul_of_nonneg_left (add_le_add hx2 hy2) (sq_nonneg _)
  refine this.trans ?_
  nlinarith [mul_nonneg (sq_nonneg Rein) (sq_nonneg (1 - Q))]

/-- Nearly round lenses are nearly isothermal spheres: the difference is at most `12 Rein (1 - q)`, at every position, for
every orientation and core. -/
theorem C125_near (x0 y0 q phi Rein s x y : ℝ) (hq : 1 / 2 ≤ q) (hq1 : q < 1) (hR : 0 ≤ Rein) (hs : 0 ≤ s)
    (h : 0 < (x - x0) ^ 2 + (y - y0) ^ 2 ∨ 0 < s) :
    gap (sieDeflection x0 y0 q phi Rein s x y) (isoSphere x0 y0 Rein s x y) ≤ 12 * Rein * (1 - q) := by
  have e := sieQ_of_ne hq1.ne
  have := sie_gap x0 y0 q phi Rein s x y (by rwa [e]) (by rwa [e]) hR hs h
  rwa [e] at this

example : gap (sieDeflection 0 0 0.999 1 2 0 3 4) (isoSphere 0 0 2 0 3 4) ≤ 0.024 :=
  (C125_near 0 0 0.999 1 2 0 3 4 (by norm_num) (by norm_num) (by norm_num) le_rfl (.inl (by norm_num))).trans
    (by norm_num)

/-- Hence the deflection tends to that of the sphere as `q` approaches 1. -/
theorem C125_limit (x0 y0 phi Rein s x y : ℝ) (hR : 0 ≤ Rein) (hs : 0 ≤ s) (h : 0 < (x - x0) ^ 2 + (y - y0) ^ 2 ∨ 0 < s) :
    Tendsto (fun q => sieDeflection x0 y0 q phi Rein s x y) (𝓝[<] 1) (𝓝 (isoSphere x0 y0 Rein s x y)) := by
  rw [tendsto_iff_dist_tendsto_zero]
  have hlim : Tendsto (fun q : ℝ => 12 * Rein * (1 - q)) (𝓝[<] 1) (𝓝 0) := by
    have : ContinuousAt (fun q : ℝ => 12 * Rein * (1 - q)) 1 := by fun_prop
    have h2 := this.tendsto
    simp only [sub_self, mul_zero] at h2
    exact h2.mono_left nhdsWithin_le_nhds
  refine squeeze_zero' (Eventually.of_forall fun _ => dist_nonneg) ?_ hlim
  have hev : ∀ᶠ q : ℝ in 𝓝[<] 1, 1 / 2 < q ∧ q < 1 :=
    Ioo_mem_nhdsLT (by norm_num : (1 / 2 : ℝ) < 1)
  filter_upwards [hev] with q hq
  refine le_trans ?_ (C125_near x0 y0 q phi Rein s x y hq.1.le hq.2 hR hs h)
  rw [Prod.dist_eq, Real.dist_eq, Real.dist_eq]
  exact max_le (abs_le_sqrt (by nlinarith [sq_nonneg ((sieDeflection x0 y0 q phi Rein s x y).2 - (isoSphere x0 y0 Rein s x y).2)]))
    (abs_le_sqrt (by nlinarith [sq_nonneg ((sieDeflection x0 y0 q phi Rein s x y).1 - (isoSphere x0 y0 Rein s x y).1)]))

example : Tendsto (fun q => sieDeflection 0 0 q 1 2 0 3 4) (𝓝[<] 1) (𝓝 (6 / 5, 8 / 5)) := by
  have := C125_limit 0 0 1 2 0 3 4 (by norm_num) le_rfl (.inl (by norm_num))
  have e : isoSphere 0 0 2 0 3 4 = (6 / 5, 8 / 5) := by
    have : √((3 - 0) ^ 2 + (4 - 0) ^ 2 + 0 ^ 2 : ℝ) = 5 := by
      rw [show ((3 - 0) ^ 2 + (4 - 0) ^ 2 + 0 ^ 2 : ℝ) = 5 ^ 2 by norm_num, sqrt_sq (by norm_num)]
    simp only [isoSphere, this]
    norm_num
  rwa [e] at this

/-- Without a core this is the `SIS` lens. -/
theorem C125_sis (x0 y0 Rein x y : ℝ) : isoSphere x0 y0 Rein 0 x y = sisDeflection x0 y0 Rein 0 x y := by
  simp [isoSphere, sisDeflection, translateRotate]

example : isoSphere 1 0 2 0 3 4 = sisDeflection 1 0 2 0 3 4 := C125_sis 1 0 2 3 4

/-- The claim: an `SIE` of axis ratio 1 deflects like the isothermal sphere. -/
def C125_statement : Prop :=
  ∀ x0 y0 phi Rein s x y : ℝ, 0 < Rein → 0 ≤ s → (0 < (x - x0) ^ 2 + (y - y0) ^ 2 ∨ 0 < s) →
    sieDeflection x0 y0 1 phi Rein s x y = isoSphere x0 y0 Rein s x y

/-- What holds: up to twelve millionths of the Einstein radius. -/
theorem C125_round_partial (x0 y0 phi Rein s x y : ℝ) (hR : 0 ≤ Rein) (hs : 0 ≤ s) (h : 0 < (x - x0) ^ 2 + (y - y0) ^ 2 ∨ 0 < s) :
    gap (sieDeflection x0 y0 1 phi Rein s x y) (isoSphere x0 y0 Rein s x y) ≤ 12e-6 * Rein := by
  have := sie_gap x0 y0 1 phi Rein s x y (by rw [sieQ_one]; norm_num) (by rw [sieQ_one]; norm_num) hR hs h
  rw [sieQ_one] at this
  refine this.trans (le_of_eq ?_)
  ring

example : gap (sieDeflection 0 0 1 0 1 (1 / 2) 0 0) (isoSphere 0 0 1 (1 / 2) 0 0) ≤ 12e-6 :=
  (C125_round_partial 0 0 0 1 (1 / 2) 0 0 zero_le_one (by norm_num) (.inr (by norm_num))).trans (by norm_num)

/-- The deflection on the long axis is smaller than `Rein`: the lens used is not round. -/
theorem C125_fails_axis (x0 y0 Rein X : ℝ) (hR : 0 < Rein) (hX : 0 < X) :
    (sieDeflection x0 y0 1 0 Rein 0 (x0 + X) y0).1 < Rein ∧ (isoSphere x0 y0 Rein 0 (x0 + X) y0).1 = Rein := by
  constructor
  · have hq0 : (0 : ℝ) < 1 - 1e-6 := by norm_num
    have hw : (9 / 10 : ℝ) ≤ √(1 - 1e-6) := by
      apply le_sqrt_of_sq_le
      norm_num
    have hw1 : √(1 - 1e-6 : ℝ) < 1 := by
      rw [sqrt_lt' one_pos]
      norm_num
    have hw2 : √(1 - 1e-6 : ℝ) ^ 2 = 1 - 1e-6 := sq_sqrt hq0.le
    have key := round_x_lt hw hw1
    rw [hw2] at key
    have hpsi : √((1 - 1e-6) ^ 2 * ((x0 + X - x0) * 1 + (y0 - y0) * 0) ^ 2 + 0) = (1 - 1e-6) * X := by
      rw [show ((1 - 1e-6) ^ 2 * ((x0 + X - x0) * 1 + (y0 - y0) * 0) ^ 2 + 0 : ℝ) = ((1 - 1e-6) * X) ^ 2 by ring]
      exact sqrt_sq (by positivity)
    have e : (sieDeflection x0 y0 1 0 Rein 0 (x0 + X) y0).1
        = Rein * (√(1 - 1e-6) / √(1 - (1 - 1e-6) ^ 2) * arctan (√(1 - (1 - 1e-6) ^ 2) / (1 - 1e-6))) := by
      have hp2 : √((1 - 1e-6) ^ 2 * X ^ 2) = (1 - 1e-6) * X := by
        rw [← mul_pow]
        exact sqrt_sq (by positivity)
      simp only [sieDeflection, translateRotate, derotate, sieQ_one, cos_zero, sin_zero, mul_one, mul_zero, sub_zero,
        add_zero, add_sub_cancel_left, sub_self, ne_eq, OfNat.ofNat_ne_zero, not_false_eq_true, zero_pow, hp2]
      rw [mul_div_mul_right _ _ hX.ne']
      ring
    rw [e]
    nlinarith
  · have : √(X ^ 2) = X := sqrt_sq hX.le
    simp [isoSphere, this, hX.ne']

example : (sieDeflection 0 0 1 0 1 0 1 0).1 < 1 := by
  have := (C125_fails_axis 0 0 1 1 one_pos one_pos).1
  rwa [zero_add] at this

/-- The claim fails. -/
theorem C125_fails : ¬C125_statement := by
  intro h
  obtain ⟨h1, h2⟩ := C125_fails_axis 0 0 1 1 one_pos one_pos
  rw [h 0 0 0 1 0 (0 + 1) 0 one_pos le_rfl (.inl (by norm_num))] at h1
  linarith

/-- The deflection jumps at `q = 1`. -/
theorem C125_fails_continuous (x0 y0 Rein X : ℝ) (hR : 0 < Rein) (hX : 0 < X) :
    ¬ContinuousAt (fun q => sieDeflection x0 y0 q 0 Rein 0 (x0 + X) y0) 1 := by
  intro hc
  have hoff : 0 < (x0 + X - x0) ^ 2 + (y0 - y0) ^ 2 := by
    simp only [add_sub_cancel_left, sub_self]
    positivity
  have h1 := C125_limit x0 y0 0 Rein 0 (x0 + X) y0 hR.le le_rfl (.inl hoff)
  have h2 := tendsto_nhds_unique (hc.tendsto.mono_left (nhdsWithin_le_nhds (s := Set.Iio 1))) h1
  obtain ⟨h3, h4⟩ := C125_fails_axis x0 y0 Rein X hR hX
  rw [h2, h4] at h3
  exact lt_irrefl _ h3

example : ¬ContinuousAt (fun q => sieDeflection 0 0 q 0 1 0 (0 + 1) 0) 1 := C125_fails_continuous 0 0 1 1 one_pos one_pos

/-- The convergence is exact at `q = 1` and has no jump: it is not the convergence of the deflection used. -/
theorem C125_convergence (x0 y0 phi Rein s x y : ℝ) (h : 0 < (x - x0) ^ 2 + (y - y0) ^ 2 ∨ 0 < s) :
    sieConvergence x0 y0 1 phi Rein s x y = Rein / (2 * √((x - x0) ^ 2 + (y - y0) ^ 2 + s ^ 2)) ∧
    ContinuousAt (fun q => sieConvergence x0 y0 q phi Rein s x y) 1 := by
  have hc := sin_sq_add_cos_sq phi
  have hr : 1 ^ 2 * (((x - x0) * cos phi + (y - y0) * sin phi) ^ 2 + s ^ 2) + ((y - y0) * cos phi - (x - x0) * sin phi) ^ 2
      = (x - x0) ^ 2 + (y - y0) ^ 2 + s ^ 2 := by
    linear_combination ((x - x0) ^ 2 + (y - y0) ^ 2) * hc
  have hpos : 0 < (x - x0) ^ 2 + (y - y0) ^ 2 + s ^ 2 := by
    rcases h with h | h
    · have : 0 < (x - x0) ^ 2 + (y - y0) ^ 2 := h
      positivity
    · positivity
  constructor
  · simp only [sieConvergence, translateRotate, hr, sqrt_one]
    field_simp
    norm_num
    ring
  · simp only [sieConvergence, translateRotate]
    refine ContinuousAt.div (by fun_prop) (by fun_prop) ?_
    rw [hr]
    exact (sqrt_pos.2 hpos).ne'

example : sieConvergence 0 0 1 1 2 0 3 4 = 1 / 5 := by
  rw [(C125_convergence 0 0 1 2 0 3 4 (.inl (by norm_num))).1]
  have : √((3 - 0) ^ 2 + (4 - 0) ^ 2 + 0 ^ 2 : ℝ) = 5 := by
    rw [show ((3 - 0) ^ 2 + (4 - 0) ^ 2 + 0 ^ 2 : ℝ) = 5 ^ 2 by norm_num, sqrt_sq (by norm_num)]
  rw [this]
  norm_num

/-- The two lenses mean different things by `s`: with `s > 0`, away from the centre, the `SIS` lens bends more than the
round limit of the `SIE` lens. -/
theorem C125_softening (x0 y0 Rein s x y : ℝ) (hR : 0 < Rein) (hs : 0 < s) (h : x0 < x) :
    (isoSphere x0 y0 Rein s x y).1 < (sisDeflection x0 y0 Rein s x y).1 := by
  have hx : 0 < x - x0 := by linarith
  have h0 : 0 ≤ √((x - x0) ^ 2 + (y - y0) ^ 2) := sqrt_nonneg _
  have hlt : √((x - x0) ^ 2 + (y - y0) ^ 2) < √((x - x0) ^ 2 + (y - y0) ^ 2 + s ^ 2) :=
    sqrt_lt_sqrt (by positivity) (by nlinarith)
  simp only [isoSphere, sisDeflection, translateRotate]
  exact div_lt_div_of_pos_left (mul_pos hR hx) (by linarith) (by linarith)

example : (isoSphere 0 0 1 1 1 0).1 < (sisDeflection 0 0 1 1 1 0).1 := C125_softening 0 0 1 1 1 0 one_pos one_pos one_pos

end Caustics
