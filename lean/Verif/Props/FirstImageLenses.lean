import Verif.Props.FirstImage
import Verif.Props.Admissible
import Mathlib.Analysis.SpecialFunctions.Log.Basic

/-! The lenses to which the theorems about the first image apply. -/

namespace Caustics

open Filter Topology

theorem dist_growth (x y x0 y0 : ℝ) :
    √((x - x0) ^ 2 + (y - y0) ^ 2) ≤ √(x ^ 2 + y ^ 2) + √(x0 ^ 2 + y0 ^ 2) := by
  rw [Real.sqrt_le_left (by positivity)]
  have h1 : √(x ^ 2 + y ^ 2) ^ 2 = x ^ 2 + y ^ 2 := Real.sq_sqrt (by positivity)
  have h2 : √(x0 ^ 2 + y0 ^ 2) ^ 2 = x0 ^ 2 + y0 ^ 2 := Real.sq_sqrt (by positivity)
  have h3 : -(x * x0 + y * y0) ≤ √(x ^ 2 + y ^ 2) * √(x0 ^ 2 + y0 ^ 2) := by
    refine (neg_le_abs _).trans (abs_le_of_sq_le_sq ?_ (by positivity))
    rw [mul_pow, h1, h2]
    nlinarith [sq_nonneg (x * y0 - y * x0)]
  nlinarith

/-- A potential that grows linearly away from some centre. -/
theorem growth_linear {u : ℝ → ℝ → ℝ} {x0 y0 b d : ℝ} (hb : 0 ≤ b) (hd : 0 ≤ d)
    (h : ∀ x y, u x y ≤ b * √((x - x0) ^ 2 + (y - y0) ^ 2) + d) :
    ∃ b d : ℝ, 0 ≤ b ∧ 0 ≤ d ∧ ∀ x y, u x y ≤ 0 * (x ^ 2 + y ^ 2) + b * √(x ^ 2 + y ^ 2) + d := by
  refine ⟨b, b * √(x0 ^ 2 + y0 ^ 2) + d, hb, by positivity, fun x y => ?_⟩
  have := mul_le_mul_of_nonneg_left (dist_growth x y x0 y0) hb
  have := h x y
  linarith

/-- A potential that grows like the square of the distance from some centre. -/
theorem growth_quadratic {u : ℝ → ℝ → ℝ} {x0 y0 a : ℝ} (ha : 0 ≤ a)
    (h : ∀ x y, u x y ≤ a * ((x - x0) ^ 2 + (y - y0) ^ 2)) :
    ∃ b d : ℝ, 0 ≤ b ∧ 0 ≤ d ∧ ∀ x y, u x y ≤ a * (x ^ 2 + y ^ 2) + b * √(x ^ 2 + y ^ 2) + d := by
  refine ⟨2 * a * √(x0 ^ 2 + y0 ^ 2), a * (x0 ^ 2 + y0 ^ 2), by positivity, by positivity,
    fun x y => (h x y).trans ?_⟩
  have h1 : √(x ^ 2 + y ^ 2) ^ 2 = x ^ 2 + y ^ 2 := Real.sq_sqrt (by positivity)
  have h2 : √(x0 ^ 2 + y0 ^ 2) ^ 2 = x0 ^ 2 + y0 ^ 2 := Real.sq_sqrt (by positivity)
  have h3 : √((x - x0) ^ 2 + (y - y0) ^ 2) ^ 2 = (x - x0) ^ 2 + (y - y0) ^ 2 :=
    Real.sq_sqrt (by positivity)
  have h4 := pow_le_pow_left₀ (Real.sqrt_nonneg _) (dist_growth x y x0 y0) 2
  rw [h3] at h4
  have := mul_le_mul_of_nonneg_left h4 ha
  refine this.trans (le_of_eq ?_)
  linear_combination a * h1 + a * h2

theorem norm_le_dist (k : ℝ × ℝ) : ‖k‖ ≤ √(k.1 ^ 2 + k.2 ^ 2) := by
  rw [Prod.norm_def]
  apply max_le <;> rw [Real.norm_eq_abs] <;> apply Real.abs_le_sqrt
  · nlinarith [sq_nonneg k.2]
  · nlinarith [sq_nonneg k.1]

theorem hasCusp_of_cone {u : ℝ → ℝ → ℝ} {x0 y0 c : ℝ} (hc : 0 < c)
    (h : ∀ x y, u x0 y0 + c * √((x - x0) ^ 2 + (y - y0) ^ 2) ≤ u x y) : HasCusp u x0 y0 := by
  refine ⟨0, 0, c, hc, Eventually.of_forall fun k => ?_⟩
  have h1 := h (x0 + k.1) (y0 + k.2)
  rw [add_sub_cancel_left, add_sub_cancel_left] at h1
  have := mul_le_mul_of_nonneg_left (norm_le_dist k) hc.le
  linarith

theorem eventually_ne_centre {p : ℝ × ℝ} {x0 y0 : ℝ} (h : p ≠ (x0, y0)) :
    ∀ᶠ q : ℝ × ℝ in 𝓝 p, (q.1, q.2) ≠ (x0, y0) := isOpen_ne.mem_nhds h

/-! ### SIS -/

/-- `SIS` without softening. -/
noncomputable def sisLens (x0 y0 Rein : ℝ) : LensFn ℝ :=
  ⟨sisDeflection x0 y0 Rein 0, sisConvergence x0 y0 Rein 0, sisPotential x0 y0 Rein 0⟩

theorem massive_sis (x0 y0 Rein : ℝ) (hR : 0 < Rein) : Nonempty ((sisLens x0 y0 Rein).Massive 0) := by
  have e : ∀ x y, sisPotential x0 y0 Rein 0 x y = Rein * √((x - x0) ^ 2 + (y - y0) ^ 2) := by
    intro x y; simp [sisPotential, translateRotate]
  refine ⟨⟨∅, Set.finite_empty, by simp, fun p _ => ?_, ?_⟩⟩
  · by_cases h : p = (x0, y0)
    · right
      subst h
      refine ⟨?_, hasCusp_of_cone hR fun x y => ?_⟩
      · simp only [sisLens, e]
        fun_prop
      · simp [sisLens, e]
    · left
      refine ⟨?_, C24_sis x0 y0 Rein p.1 p.2 h, ?_⟩
      · filter_upwards [eventually_ne_centre h] with q hq using C23_sis x0 y0 Rein q.1 q.2 hq
      · simp only [sisLens, sisConvergence]
        positivity
  · exact growth_linear (x0 := x0) (y0 := y0) hR.le le_rfl fun x y => by simp [sisLens, e]

/-! ### Point mass -/

/-- `Point` without softening; its convergence is infinite at the centre, which is a pole. -/
noncomputable def pointLens (x0 y0 Rein : ℝ) : LensFn ℝ :=
  ⟨pointDeflection x0 y0 Rein 0, fun x y => (pointConvergence x0 y0 x y).getD 0, pointPotential x0 y0 Rein 0⟩

theorem massive_point (x0 y0 Rein : ℝ) (hR : 0 < Rein) : Nonempty ((pointLens x0 y0 Rein).Massive 0) := by
  have e : ∀ x y, pointPotential x0 y0 Rein 0 x y = Rein ^ 2 * Real.log (√((x - x0) ^ 2 + (y - y0) ^ 2)) := by
    intro x y; simp [pointPotential, translateRotate]
  have hR2 : 0 < Rein ^ 2 := by positivity
  refine ⟨⟨{(x0, y0)}, Set.finite_singleton _, ?_, fun p hp => Or.inl ?_, ?_⟩⟩
  · rintro p rfl
    have hc : Continuous fun q : ℝ × ℝ => √((q.1 - x0) ^ 2 + (q.2 - y0) ^ 2) := by fun_prop
    have h0 : Tendsto (fun q : ℝ × ℝ => √((q.1 - x0) ^ 2 + (q.2 - y0) ^ 2)) (𝓝[≠] (x0, y0)) (𝓝[>] 0) := by
      refine tendsto_nhdsWithin_iff.mpr ⟨?_, ?_⟩
      · have := (hc.tendsto (x0, y0)).mono_left (nhdsWithin_le_nhds (s := {(x0, y0)}ᶜ))
        simpa using this
      · filter_upwards [self_mem_nhdsWithin] with q hq
        exact radius_pos (sub_ne_zero_or (x := q.1) (y := q.2) hq)
    have h1 := Real.tendsto_log_nhdsGT_zero.comp h0
    have h2 := h1.const_mul_atBot hR2
    exact h2.congr fun q => (e q.1 q.2).symm
  · have hne : p ≠ (x0, y0) := hp
    obtain ⟨k, hk, hK⟩ := C24_point x0 y0 Rein p.1 p.2 hne
    have hk0 := (C24_point_centre x0 y0 p.1 p.2).2 hne
    refine ⟨?_, ?_, ?_⟩
    · filter_upwards [eventually_ne_centre hne] with q hq using C23_point x0 y0 Rein q.1 q.2 hq
    · simpa only [pointLens, hk, Option.getD_some] using hK
    · simp [pointLens, hk0]
  · refine growth_linear (x0 := x0) (y0 := y0) hR2.le le_rfl fun x y => ?_
    simp only [pointLens, e, add_zero]
    exact mul_le_mul_of_nonneg_left (Real.log_le_self (Real.sqrt_nonneg _)) hR2.le

/-! ### Sheet and shear -/

/-- `MassSheet`. -/
noncomputable def sheetLens (x0 y0 kappa : ℝ) : LensFn ℝ :=
  ⟨sheetDeflection x0 y0 kappa, sheetConvergence kappa, sheetPotential x0 y0 kappa⟩

theorem massive_sheet (x0 y0 kappa : ℝ) (hk : 0 ≤ kappa) :
    Nonempty ((sheetLens x0 y0 kappa).Massive (kappa / 2)) := by
  refine ⟨⟨∅, Set.finite_empty, by simp, fun p _ => Or.inl ⟨?_, C24_mass_sheet x0 y0 kappa p.1 p.2, ?_⟩,
    ?_⟩⟩
  · exact Eventually.of_forall fun q => C23_mass_sheet x0 y0 kappa q.1 q.2
  · simpa [sheetLens, sheetConvergence] using hk
  · exact growth_quadratic (x0 := x0) (y0 := y0) (by linarith) fun x y => le_rfl

/-- `ExternalShear`. -/
noncomputable def shearLens (x0 y0 g1 g2 : ℝ) : LensFn ℝ :=
  ⟨shearDeflection x0 y0 g1 g2, shearConvergence, shearPotential x0 y0 g1 g2⟩

theorem shear_quadratic (g1 g2 X Y : ℝ) :
    0.5 * g1 * (X ^ 2 - Y ^ 2) + g2 * X * Y ≤ √(g1 ^ 2 + g2 ^ 2) / 2 * (X ^ 2 + Y ^ 2) := by
  have h1 : √(g1 ^ 2 + g2 ^ 2) ^ 2 = g1 ^ 2 + g2 ^ 2 := Real.sq_sqrt (by positivity)
  have : g1 * (X ^ 2 - Y ^ 2) + g2 * (2 * X * Y) ≤ √(g1 ^ 2 + g2 ^ 2) * (X ^ 2 + Y ^ 2) := by
    refine (le_abs_self _).trans (abs_le_of_sq_le_sq ?_ (by positivity))
    rw [mul_pow, h1]
    nlinarith [sq_nonneg (g1 * (2 * X * Y) - g2 * (X ^ 2 - Y ^ 2))]
  norm_num
  linarith

theorem massive_shear (x0 y0 g1 g2 : ℝ) :
    Nonempty ((shearLens x0 y0 g1 g2).Massive (√(g1 ^ 2 + g2 ^ 2) / 2)) := by
  refine ⟨⟨∅, Set.finite_empty, by simp,
    fun p _ => Or.inl ⟨?_, C24_external_shear x0 y0 g1 g2 p.1 p.2, le_rfl⟩, ?_⟩⟩
  · exact Eventually.of_forall fun q => C23_external_shear x0 y0 g1 g2 q.1 q.2
  · exact growth_quadratic (x0 := x0) (y0 := y0) (by positivity) fun x y =>
      shear_quadratic g1 g2 (x - x0) (y - y0)

/-! ### SIE -/

/-- `SIE`, with a core `s`. -/
noncomputable def sieLens (x0 y0 q phi Rein s : ℝ) : LensFn ℝ :=
  ⟨sieDeflection x0 y0 q phi Rein s, sieConvergence x0 y0 q phi Rein s, siePotential x0 y0 q phi Rein s⟩

theorem artanh_odd (v : ℝ) : Real.artanh (-v) = -Real.artanh v := by
  unfold Real.artanh
  rw [← Real.log_inv, ← Real.sqrt_inv, inv_div]
  congr 2
  ring

/-- `v artanh v`-type products between two multiples of the argument. -/
theorem mul_artanh_bounds {Y k f : ℝ} (hk : 0 ≤ k) (hf : f < 1) (h : k * |Y| ≤ f) :
    Y * (k * Y) / 2 ≤ Y * Real.artanh (k * Y) ∧ Y * Real.artanh (k * Y) ≤ |Y| * Real.artanh f := by
  have key : ∀ Y : ℝ, 0 ≤ Y → k * Y ≤ f →
      Y * (k * Y) / 2 ≤ Y * Real.artanh (k * Y) ∧ Y * Real.artanh (k * Y) ≤ Y * Real.artanh f := by
    intro Y hY hle
    have hv : 0 ≤ k * Y := mul_nonneg hk hY
    have hv1 : k * Y < 1 := lt_of_le_of_lt hle hf
    constructor
    · rw [mul_div_assoc]
      apply mul_le_mul_of_nonneg_left _ hY
      rw [Real.artanh_eq_half_log ⟨by linarith, hv1.le⟩]
      have hpos : 0 < (1 + k * Y) / (1 - k * Y) := div_pos (by linarith) (by linarith)
      have h1 := Real.one_sub_inv_le_log_of_pos hpos
      rw [inv_div] at h1
      have h2 : k * Y ≤ 1 - (1 - k * Y) / (1 + k * Y) := by
        rw [le_sub_iff_add_le, ← le_sub_iff_add_le', div_le_iff₀ (by linarith)]
        nlinarith
      linarith
    · exact mul_le_mul_of_nonneg_left (Real.artanh_le_artanh (by linarith) hf hle) hY
  rcases le_total 0 Y with hY | hY
  · rw [abs_of_nonneg hY] at h ⊢
    exact key Y hY h
  · rw [abs_of_nonpos hY] at h ⊢
    have := key (-Y) (by linarith) h
    rw [mul_neg, artanh_odd] at this
    simpa using this

theorem mul_arctan_bounds (X k : ℝ) (hk : 0 ≤ k) :
    X * (k * X) / √(1 + (k * X) ^ 2) ≤ X * Real.arctan (k * X) ∧
      X * Real.arctan (k * X) ≤ |X| * (Real.pi / 2) := by
  have key : ∀ X : ℝ, 0 ≤ X → X * (k * X) / √(1 + (k * X) ^ 2) ≤ X * Real.arctan (k * X) ∧
      X * Real.arctan (k * X) ≤ X * (Real.pi / 2) := by
    intro X hX
    constructor
    · rw [mul_div_assoc, ← Real.sin_arctan]
      exact mul_le_mul_of_nonneg_left (Real.sin_le (Real.arctan_nonneg.mpr (by positivity))) hX
    · exact mul_le_mul_of_nonneg_left (Real.arctan_lt_pi_div_two _).le hX
  rcases le_total 0 X with hX | hX
  · rw [abs_of_nonneg hX]
    exact key X hX
  · rw [abs_of_nonpos hX]
    have := key (-X) (by linarith)
    rw [mul_neg, Real.arctan_neg] at this
    simpa using this

theorem siePotential_frame (x0 y0 q phi Rein s x y : ℝ) (hq1 : q ≠ 1) :
    let p := translateRotate x y x0 y0 (some phi)
    let f := √(1 - q ^ 2)
    let b := Rein * √q / f
    let psi := √(q ^ 2 * (p.1 ^ 2 + s ^ 2) + p.2 ^ 2)
    siePotential x0 y0 q phi Rein s x y
      = b * (p.1 * Real.arctan (f / (psi + s) * p.1) + p.2 * Real.artanh (f / (psi + q ^ 2 * s) * p.2))
        - Rein * √q * s * Real.log (√((psi + max s 1e-6) ^ 2 + (1 - q ^ 2) * p.1 ^ 2))
        + Rein * √q * s * Real.log ((1 + q) * max s 1e-6) := by
  intro p f b psi
  have hqq : sieQ q = q := if_neg hq1
  simp only [siePotential, sieDeflection, hqq]
  rw [show ∀ A B : ℝ, derotate (derotate A B (some phi)).1 (derotate A B (some phi)).2 (some (-phi))
      = (A, B) by
    intro A B
    have cs := Real.sin_sq_add_cos_sq phi
    simp only [derotate, Real.cos_neg, Real.sin_neg]
    ext
    · simp only; linear_combination A * cs
    · simp only; linear_combination B * cs]
  simp only [p, f, b, psi, div_mul_eq_mul_div]
  ring

theorem frame_sq (x y x0 y0 phi : ℝ) :
    (translateRotate x y x0 y0 (some phi)).1 ^ 2 + (translateRotate x y x0 y0 (some phi)).2 ^ 2
      = (x - x0) ^ 2 + (y - y0) ^ 2 := by
  have cs := Real.sin_sq_add_cos_sq phi
  simp only [translateRotate]
  linear_combination ((x - x0) ^ 2 + (y - y0) ^ 2) * cs

theorem sie_growth (x0 y0 q phi Rein s : ℝ) (hq : 0 < q) (hq1 : q < 1) (hR : 0 ≤ Rein)
    (hs : s = 0 ∨ 1e-6 ≤ s) : ∃ b : ℝ, 0 ≤ b ∧ ∀ x y, siePotential x0 y0 q phi Rein s x y
      ≤ b * √((x - x0) ^ 2 + (y - y0) ^ 2) + Rein * √q * s * Real.log (1 + q) := by
  have hs0 : 0 ≤ s := by rcases hs with h | h <;> linarith
  have hf2 : 0 < 1 - q ^ 2 := by nlinarith
  have hf : 0 < √(1 - q ^ 2) := Real.sqrt_pos.mpr hf2
  have hf1 : √(1 - q ^ 2) < 1 := by
    rw [Real.sqrt_lt' one_pos]
    nlinarith
  have hb : 0 ≤ Rein * √q / √(1 - q ^ 2) := by positivity
  have hbs : 0 ≤ Rein * √q * s := by positivity
  have hA : 0 ≤ Real.artanh (√(1 - q ^ 2)) := Real.artanh_nonneg hf.le
  refine ⟨Rein * √q / √(1 - q ^ 2) * (Real.pi / 2 + Real.artanh (√(1 - q ^ 2))), by positivity,
    fun x y => ?_⟩
  have hfr := frame_sq x y x0 y0 phi
  rw [siePotential_frame x0 y0 q phi Rein s x y hq1.ne]
  generalize (translateRotate x y x0 y0 (some phi)).1 = X at *
  generalize (translateRotate x y x0 y0 (some phi)).2 = Y at *
  rw [← hfr]
  set psi := √(q ^ 2 * (X ^ 2 + s ^ 2) + Y ^ 2) with hpsi
  have hpsi0 : 0 ≤ psi := Real.sqrt_nonneg _
  have hX : |X| ≤ √(X ^ 2 + Y ^ 2) := Real.abs_le_sqrt (by nlinarith [sq_nonneg Y])
  have hY : |Y| ≤ √(X ^ 2 + Y ^ 2) := Real.abs_le_sqrt (by nlinarith [sq_nonneg X])
  have hYpsi : |Y| ≤ psi := Real.abs_le_sqrt (by
    have : 0 ≤ q ^ 2 * (X ^ 2 + s ^ 2) := by positivity
    linarith)
  have h1 := (mul_arctan_bounds X (√(1 - q ^ 2) / (psi + s)) (by positivity)).2
  have h2 := (mul_artanh_bounds (Y := Y) (k := √(1 - q ^ 2) / (psi + q ^ 2 * s))
    (f := √(1 - q ^ 2)) (by positivity) hf1 (by
      rcases (add_nonneg hpsi0 (by positivity : 0 ≤ q ^ 2 * s)).eq_or_lt with h0 | h0
      · rw [← h0, div_zero, zero_mul]; exact hf.le
      · rw [div_mul_eq_mul_div, div_le_iff₀ h0]
        apply mul_le_mul_of_nonneg_left _ hf.le
        nlinarith [mul_nonneg (sq_nonneg q) hs0])).2
  have h3 : X * Real.arctan (√(1 - q ^ 2) / (psi + s) * X)
      + Y * Real.artanh (√(1 - q ^ 2) / (psi + q ^ 2 * s) * Y)
      ≤ (Real.pi / 2 + Real.artanh (√(1 - q ^ 2))) * √(X ^ 2 + Y ^ 2) := by
    have a1 := mul_le_mul_of_nonneg_right hX (by positivity : 0 ≤ Real.pi / 2)
    have a2 := mul_le_mul_of_nonneg_right hY hA
    linarith
  have h4 := mul_le_mul_of_nonneg_left h3 hb
  have h5 : -(Rein * √q * s * Real.log (√((psi + max s 1e-6) ^ 2 + (1 - q ^ 2) * X ^ 2)))
      + Rein * √q * s * Real.log ((1 + q) * max s 1e-6) ≤ Rein * √q * s * Real.log (1 + q) := by
    have hms : 0 < max s 1e-6 := lt_max_of_lt_right (by norm_num)
    have h6 : Real.log (max s 1e-6) ≤ Real.log (√((psi + max s 1e-6) ^ 2 + (1 - q ^ 2) * X ^ 2)) := by
      apply Real.log_le_log hms
      apply Real.le_sqrt_of_sq_le
      have : 0 ≤ (1 - q ^ 2) * X ^ 2 := by positivity
      nlinarith [mul_nonneg hpsi0 hms.le]
    rw [Real.log_mul (by linarith) hms.ne']
    have := mul_le_mul_of_nonneg_left h6 hbs
    linarith
  linarith

/-- A singular SIE has a cusp at its centre. -/
theorem sie_cone (x0 y0 q phi Rein : ℝ) (hq : 0 < q) (hq1 : q < 1) (hR : 0 < Rein) (x y : ℝ) :
    siePotential x0 y0 q phi Rein 0 x0 y0 + Rein * √q / 2 * √((x - x0) ^ 2 + (y - y0) ^ 2)
      ≤ siePotential x0 y0 q phi Rein 0 x y := by
  have hf2 : 0 < 1 - q ^ 2 := by nlinarith
  have hf : 0 < √(1 - q ^ 2) := Real.sqrt_pos.mpr hf2
  have hff : √(1 - q ^ 2) ^ 2 = 1 - q ^ 2 := Real.sq_sqrt hf2.le
  have hf1 : √(1 - q ^ 2) < 1 := by
    rw [Real.sqrt_lt' one_pos]
    nlinarith
  have hfr := frame_sq x y x0 y0 phi
  rw [siePotential_frame x0 y0 q phi Rein 0 x y hq1.ne, siePotential_frame x0 y0 q phi Rein 0 x0 y0 hq1.ne]
  have hz : translateRotate x0 y0 x0 y0 (some phi) = (0, 0) := by simp [translateRotate]
  rw [hz]
  generalize (translateRotate x y x0 y0 (some phi)).1 = X at *
  generalize (translateRotate x y x0 y0 (some phi)).2 = Y at *
  rw [← hfr]
  simp only [zero_mul, mul_zero, add_zero, sub_zero, zero_add, ne_eq, OfNat.ofNat_ne_zero,
    not_false_eq_true, zero_pow]
  rcases (Real.sqrt_nonneg (X ^ 2 + Y ^ 2)).eq_or_lt with h0 | hρ
  · have h0' : X ^ 2 + Y ^ 2 = 0 := by
      have := Real.sqrt_eq_zero (by positivity : 0 ≤ X ^ 2 + Y ^ 2)
      exact this.mp h0.symm
    have hX : X = 0 := by nlinarith [sq_nonneg X, sq_nonneg Y]
    have hY : Y = 0 := by nlinarith [sq_nonneg X, sq_nonneg Y]
    simp [hX, hY]
  set psi := √(q ^ 2 * X ^ 2 + Y ^ 2) with hpsi
  set ρ := √(X ^ 2 + Y ^ 2) with hρd
  have hρ2 : ρ ^ 2 = X ^ 2 + Y ^ 2 := Real.sq_sqrt (by positivity)
  have hpsi2 : psi ^ 2 = q ^ 2 * X ^ 2 + Y ^ 2 := Real.sq_sqrt (by positivity)
  have hpsi0 : 0 < psi := by
    rcases (Real.sqrt_nonneg (q ^ 2 * X ^ 2 + Y ^ 2)).eq_or_lt with h | h
    · exfalso
      rw [← hpsi] at h
      rw [← h] at hpsi2
      have hq2 : 0 < q ^ 2 := by positivity
      have hqX : q ^ 2 * X ^ 2 = 0 := by nlinarith [mul_nonneg hq2.le (sq_nonneg X), sq_nonneg Y]
      have hX2 : X ^ 2 = 0 := (mul_eq_zero.mp hqX).resolve_left hq2.ne'
      nlinarith
    · exact h
  have hpρ : psi ≤ ρ := Real.sqrt_le_sqrt (by nlinarith [sq_nonneg X])
  have hYpsi : |Y| ≤ psi := Real.abs_le_sqrt (by nlinarith [mul_nonneg (sq_nonneg q) (sq_nonneg X)])
  have h1 := (mul_arctan_bounds X (√(1 - q ^ 2) / psi) (by positivity)).1
  have h2 := (mul_artanh_bounds (Y := Y) (k := √(1 - q ^ 2) / psi)
    (f := √(1 - q ^ 2)) (by positivity) hf1 (by
      rw [div_mul_eq_mul_div, div_le_iff₀ hpsi0]
      exact mul_le_mul_of_nonneg_left hYpsi hf.le)).1
  have e1 : √(1 + (√(1 - q ^ 2) / psi * X) ^ 2) = ρ / psi := by
    rw [Real.sqrt_eq_iff_mul_self_eq (by positivity) (by positivity)]
    field_simp
    rw [hff]
    nlinarith
  rw [e1] at h1
  have e2 : X * (√(1 - q ^ 2) / psi * X) / (ρ / psi) = √(1 - q ^ 2) * X ^ 2 / ρ := by
    field_simp
  rw [e2] at h1
  have h3 : √(1 - q ^ 2) * Y ^ 2 / (2 * ρ) ≤ Y * (√(1 - q ^ 2) / psi * Y) / 2 := by
    have : Y * (√(1 - q ^ 2) / psi * Y) / 2 = √(1 - q ^ 2) * Y ^ 2 / (2 * psi) := by
      field_simp
    rw [this]
    exact div_le_div_of_nonneg_left (by positivity) (by positivity) (by linarith)
  have h4 : √(1 - q ^ 2) * ρ / 2 ≤ √(1 - q ^ 2) * X ^ 2 / ρ + √(1 - q ^ 2) * Y ^ 2 / (2 * ρ) := by
    rw [div_add_div _ _ hρ.ne' (by positivity), div_le_div_iff₀ two_pos (by positivity)]
    have : ρ * (ρ ^ 2) = ρ * (X ^ 2 + Y ^ 2) := by rw [hρ2]
    nlinarith [mul_nonneg (mul_nonneg hf.le hρ.le) (sq_nonneg X), mul_pos hf hρ]
  have h5 := mul_le_mul_of_nonneg_left (h4.trans (add_le_add h1 (h3.trans h2)))
    (by positivity : 0 ≤ Rein * √q / √(1 - q ^ 2))
  refine le_trans (le_of_eq ?_) h5
  field_simp

theorem massive_sie (x0 y0 q phi Rein s : ℝ) (hq : 0 < q) (hq1 : q < 1) (hR : 0 < Rein)
    (hs : s = 0 ∨ 1e-6 ≤ s) : Nonempty ((sieLens x0 y0 q phi Rein s).Massive 0) := by
  have hs0 : 0 ≤ s := by rcases hs with h | h <;> linarith
  obtain ⟨b, hb, hgr⟩ := sie_growth x0 y0 q phi Rein s hq hq1 hR.le hs
  have hd : 0 ≤ Rein * √q * s * Real.log (1 + q) :=
    mul_nonneg (by positivity) (Real.log_nonneg (by linarith))
  have hκ : ∀ x y, 0 ≤ sieConvergence x0 y0 q phi Rein s x y := by
    intro x y
    simp only [sieConvergence]
    positivity
  refine ⟨⟨∅, Set.finite_empty, by simp, fun p _ => ?_, growth_linear hb hd hgr⟩⟩
  by_cases h : s ≠ 0 ∨ p ≠ (x0, y0)
  · left
    refine ⟨?_, C24_sie x0 y0 q phi Rein s hq hq1 hs0 p.1 p.2 h, hκ _ _⟩
    rcases h with h | h
    · exact Eventually.of_forall fun r => C23_sie_partial x0 y0 q phi Rein s hq hq1 hs r.1 r.2 (Or.inl h)
    · filter_upwards [eventually_ne_centre h] with r hr using
        C23_sie_partial x0 y0 q phi Rein s hq hq1 hs r.1 r.2 (Or.inr hr)
  · right
    push Not at h
    obtain ⟨rfl, rfl⟩ := h
    refine ⟨?_, hasCusp_of_cone (by positivity) (sie_cone x0 y0 q phi Rein hq hq1 hR)⟩
    have h0 : siePotential x0 y0 q phi Rein 0 x0 y0 = 0 := by
      rw [siePotential_frame x0 y0 q phi Rein 0 x0 y0 hq1.ne]
      simp [translateRotate]
    have hc : Continuous fun r : ℝ × ℝ => b * √((r.1 - x0) ^ 2 + (r.2 - y0) ^ 2) := by fun_prop
    have ht := hc.tendsto (x0, y0)
    simp only [sub_self, ne_eq, OfNat.ofNat_ne_zero, not_false_eq_true, zero_pow, add_zero,
      Real.sqrt_zero, mul_zero] at ht
    change Tendsto (fun r : ℝ × ℝ => siePotential x0 y0 q phi Rein 0 r.1 r.2) (𝓝 (x0, y0))
      (𝓝 (siePotential x0 y0 q phi Rein 0 x0 y0))
    rw [h0]
    refine tendsto_of_tendsto_of_tendsto_of_le_of_le tendsto_const_nhds ht (fun r => ?_) (fun r => ?_)
    · have := sie_cone x0 y0 q phi Rein hq hq1 hR r.1 r.2
      rw [h0] at this
      have h1 : 0 ≤ Rein * √q / 2 * √((r.1 - x0) ^ 2 + (r.2 - y0) ^ 2) := by positivity
      show 0 ≤ siePotential x0 y0 q phi Rein 0 r.1 r.2
      linarith
    · have := hgr r.1 r.2
      rw [mul_zero, zero_mul, add_zero] at this
      exact this

/-! ### Pseudo-Jaffe -/

/-- `PseudoJaffe` without softening. The class returns no value for the deflection at the centre (C77); here it has the
value that makes it smooth, and C145 says which sources do not need it. -/
noncomputable def jaffeLens (L : PJaffe) : LensFn ℝ := ⟨L.deflection, L.convergence, L.potential⟩

/-- The squared distance from a point has no slope there. -/
theorem hasGrad_sqdist (x0 y0 : ℝ) : HasGrad (fun x y => (x - x0) ^ 2 + (y - y0) ^ 2) 0 0 x0 y0 := by
  have hx := (HasGrad.fst x0 y0).sub (HasGrad.const x0 x0 y0)
  have hy := (HasGrad.snd x0 y0).sub (HasGrad.const y0 x0 y0)
  have h := (hx.mul hx).add (hy.mul hy)
  have e : (fun x y : ℝ => (x - x0) ^ 2 + (y - y0) ^ 2) = fun x y => (x - x0) * (x - x0) + (y - y0) * (y - y0) := by
    funext x y; ring
  rw [e]
  exact h.congr (by ring) (by ring)

theorem jaffe_grad_centre (L : PJaffe) (hL : L.Ok) (hs : L.s = 0) : HasGrad L.potential 0 0 L.x0 L.y0 := by
  have hRc := hL.Rc
  have hRs := hL.Rs
  have hd : DifferentiableAt ℝ (fun u : ℝ => √(L.Rs ^ 2 + u) - √(L.Rc ^ 2 + u) + L.Rc * Real.log (L.Rc + √(L.Rc ^ 2 + u))
      - L.Rs * Real.log (L.Rs + √(L.Rs ^ 2 + u))) ((L.x0 - L.x0) ^ 2 + (L.y0 - L.y0) ^ 2) := by
    have k : ∀ R : ℝ, 0 < R → DifferentiableAt ℝ (fun u : ℝ => √(R ^ 2 + u)) ((L.x0 - L.x0) ^ 2 + (L.y0 - L.y0) ^ 2) :=
      fun R hR => (differentiableAt_id.const_add (R ^ 2)).sqrt
        (show R ^ 2 + ((L.x0 - L.x0) ^ 2 + (L.y0 - L.y0) ^ 2) ≠ 0 by positivity)
    have l : ∀ R : ℝ, 0 < R → DifferentiableAt ℝ (fun u : ℝ => R * Real.log (R + √(R ^ 2 + u)))
        ((L.x0 - L.x0) ^ 2 + (L.y0 - L.y0) ^ 2) := fun R hR => by
      refine (DifferentiableAt.log ((k R hR).const_add R) ?_).const_mul R
      positivity
    exact (((k _ hRs).sub (k _ hRc)).add (l _ hRc)).sub (l _ hRs)
  have h := ((hasGrad_sqdist L.x0 L.y0).comp hd.hasDerivAt).const_mul
    (-(8 * Real.pi * L.Gc2 * pjKappa0 L.mass L.Rc L.Rs L.d_l 1 * (L.d_l * L.d_ls / L.d_s) * L.Rc * L.Rs / (L.Rs - L.Rc)))
  have e : L.potential = fun x y => -(8 * Real.pi * L.Gc2 * pjKappa0 L.mass L.Rc L.Rs L.d_l 1 * (L.d_l * L.d_ls / L.d_s)
      * L.Rc * L.Rs / (L.Rs - L.Rc)) * (fun u : ℝ => √(L.Rs ^ 2 + u) - √(L.Rc ^ 2 + u)
      + L.Rc * Real.log (L.Rc + √(L.Rc ^ 2 + u)) - L.Rs * Real.log (L.Rs + √(L.Rs ^ 2 + u)))
      ((x - L.x0) ^ 2 + (y - L.y0) ^ 2) := by
    funext x y
    simp only [PJaffe.potential, translateRotate, hs, add_zero]
  rw [e]
  exact h.congr (by ring) (by ring)

theorem jaffe_deflection_centre (L : PJaffe) : L.deflection L.x0 L.y0 = (0, 0) := by
  simp [PJaffe.deflection, translateRotate]

theorem jaffe_kappa_centre (L : PJaffe) (hL : L.Ok) (hs : L.s = 0) :
    HasKappa L.deflection (L.convergence L.x0 L.y0) L.x0 L.y0 := by
  have hRc := hL.Rc
  have hRs := hL.Rs
  set C := 2 * pjKappa0 L.mass L.Rc L.Rs L.d_l L.sigmacr * L.Rc * L.Rs / (L.Rs - L.Rc) with hC
  set φ : ℝ → ℝ := fun u => C * ((L.Rc + √(L.Rc ^ 2 + u))⁻¹ - (L.Rs + √(L.Rs ^ 2 + u))⁻¹) with hφ
  have hd : DifferentiableAt ℝ φ ((L.x0 - L.x0) ^ 2 + (L.y0 - L.y0) ^ 2) := by
    have k : ∀ R : ℝ, 0 < R → DifferentiableAt ℝ (fun u : ℝ => (R + √(R ^ 2 + u))⁻¹)
        ((L.x0 - L.x0) ^ 2 + (L.y0 - L.y0) ^ 2) := fun R hR => by
      refine DifferentiableAt.inv (((differentiableAt_id.const_add (R ^ 2)).sqrt
        (show R ^ 2 + ((L.x0 - L.x0) ^ 2 + (L.y0 - L.y0) ^ 2) ≠ 0 by positivity)).const_add R) ?_
      positivity
    exact ((k _ hRc).sub (k _ hRs)).const_mul C
  have h := (hasGrad_sqdist L.x0 L.y0).comp hd.hasDerivAt
  have e : L.deflection = fun x y => (φ ((x - L.x0) ^ 2 + (y - L.y0) ^ 2) * (x - L.x0),
      φ ((x - L.x0) ^ 2 + (y - L.y0) ^ 2) * (y - L.y0)) := by
    funext x y
    rw [L.deflection_eq hL hs]
    by_cases h : (x, y) = (L.x0, L.y0)
    · have h1 : x = L.x0 := congrArg Prod.fst h
      have h2 : y = L.y0 := congrArg Prod.snd h
      subst h1 h2
      simp
    · have hr := radius_pos (sub_ne_zero_or h)
      have hq := radius_sq (x - L.x0) (y - L.y0)
      simp only [hφ]
      set r := √((x - L.x0) ^ 2 + (y - L.y0) ^ 2)
      rw [← hq]
      refine Prod.ext ?_ ?_ <;> · simp only [← hC]; field_simp
  have hx := h.mul ((HasGrad.fst L.x0 L.y0).sub (HasGrad.const L.x0 L.x0 L.y0))
  have hy := h.mul ((HasGrad.snd L.x0 L.y0).sub (HasGrad.const L.y0 L.x0 L.y0))
  refine ⟨φ 0, 0, φ 0, ?_, ?_⟩
  · rw [e]
    exact ⟨hx.congr (by simp) (by simp), hy.congr (by simp) (by simp)⟩
  · have hne : L.Rs - L.Rc ≠ 0 := sub_ne_zero.mpr hL.ne.symm
    simp only [PJaffe.convergence, translateRotate, hs, hφ, hC, sub_self, add_zero, ne_eq, OfNat.ofNat_ne_zero,
      not_false_eq_true, zero_pow, Real.sqrt_sq hRc.le, Real.sqrt_sq hRs.le]
    field_simp

theorem jaffe_convergence_nonneg (L : PJaffe) (hL : L.Ok) (hm : 0 < L.mass) (hs : L.s = 0) (x y : ℝ) :
    0 ≤ L.convergence x y := by
  have hRc := hL.Rc
  have hRs := hL.Rs
  have hk := pjKappa0_pos L hL hm
  simp only [PJaffe.convergence, translateRotate, hs, add_zero]
  have hw : 0 ≤ (x - L.x0) ^ 2 + (y - L.y0) ^ 2 := by positivity
  have := pj_diff hRc hRs hL.ne hw
  rw [div_eq_mul_one_div, mul_assoc, this]
  positivity

theorem pj_log_growth {R r : ℝ} (hR : 0 < R) (hr : 0 ≤ r) :
    |√(R ^ 2 + r ^ 2) - R * Real.log (R + √(R ^ 2 + r ^ 2))| ≤ (1 + R) * r + (R + 2 * R ^ 2 + 1) := by
  have h1 : √(R ^ 2 + r ^ 2) ≤ R + r := by
    rw [Real.sqrt_le_left (by positivity)]
    nlinarith
  have h0 := Real.sqrt_nonneg (R ^ 2 + r ^ 2)
  set w := R + √(R ^ 2 + r ^ 2) with hw
  have hw0 : R ≤ w := by linarith
  have hwp : 0 < w := by linarith
  have h2 := Real.log_le_sub_one_of_pos hwp
  have h3 := Real.one_sub_inv_le_log_of_pos hwp
  have h4 : R * w⁻¹ ≤ 1 := by
    rw [mul_inv_le_iff₀ hwp]; linarith
  have h5 := mul_le_mul_of_nonneg_left h2 hR.le
  have h6 := mul_le_mul_of_nonneg_left h3 hR.le
  have h7 : R * w ≤ R * (2 * R + r) := mul_le_mul_of_nonneg_left (by linarith) hR.le
  rw [abs_le]
  constructor <;> nlinarith

theorem jaffe_regular (L : PJaffe) (hL : L.Ok) (hm : 0 < L.mass) (hs : L.s = 0) (p : ℝ × ℝ) : (jaffeLens L).RegularAt p := by
  have hg : ∀ x y, HasGrad L.potential (L.deflection x y).1 (L.deflection x y).2 x y := by
    intro x y
    by_cases h : (x, y) = (L.x0, L.y0)
    · have h1 : x = L.x0 := congrArg Prod.fst h
      have h2 : y = L.y0 := congrArg Prod.snd h
      rw [h1, h2, jaffe_deflection_centre]
      exact jaffe_grad_centre L hL hs
    · exact C23_pseudo_jaffe L hL hs x y h
  refine ⟨Eventually.of_forall fun q => hg q.1 q.2, ?_, jaffe_convergence_nonneg L hL hm hs _ _⟩
  by_cases h : p = (L.x0, L.y0)
  · subst h
    exact jaffe_kappa_centre L hL hs
  · exact C24_pseudo_jaffe L hL hs p.1 p.2 h

theorem massive_jaffe (L : PJaffe) (hL : L.Ok) (hm : 0 < L.mass) (hs : L.s = 0) : Nonempty ((jaffeLens L).Massive 0) := by
  refine ⟨⟨∅, Set.finite_empty, by simp, fun p _ => Or.inl (jaffe_regular L hL hm hs p), ?_⟩⟩
  have hRc := hL.Rc
  have hRs := hL.Rs
  set C := -(8 * Real.pi * L.Gc2 * pjKappa0 L.mass L.Rc L.Rs L.d_l 1 * (L.d_l * L.d_ls / L.d_s) * L.Rc * L.Rs
    / (L.Rs - L.Rc)) with hC
  refine growth_linear (x0 := L.x0) (y0 := L.y0) (b := |C| * ((1 + L.Rs) + (1 + L.Rc)))
    (d := |C| * ((L.Rs + 2 * L.Rs ^ 2 + 1) + (L.Rc + 2 * L.Rc ^ 2 + 1))) (by positivity) (by positivity) fun x y => ?_
  have hr := Real.sqrt_nonneg ((x - L.x0) ^ 2 + (y - L.y0) ^ 2)
  have hq := radius_sq (x - L.x0) (y - L.y0)
  simp only [jaffeLens, PJaffe.potential, translateRotate, hs, add_zero, ← hC]
  rw [← hq]
  have h1 := pj_log_growth hRs hr
  have h2 := pj_log_growth hRc hr
  generalize √((x - L.x0) ^ 2 + (y - L.y0) ^ 2) = r at *
  have habs : ∀ a b : ℝ, |a - b| ≤ |a| + |b| := fun a b => by simpa only [Real.norm_eq_abs] using norm_sub_le a b
  refine (le_abs_self _).trans ?_
  rw [abs_mul]
  have h3 := mul_le_mul_of_nonneg_left ((habs _ _).trans (add_le_add h1 h2)) (abs_nonneg C)
  refine le_trans (le_of_eq ?_) (h3.trans (le_of_eq ?_))
  · congr 2
    ring
  · rw [Real.sqrt_sq hr]
    ring

/-! ### Any superposition of these -/

/-- A lens object of one of the classes above. -/
inductive MassiveLens where
  | sis (x0 y0 Rein : ℝ)
  | point (x0 y0 Rein : ℝ)
  | sie (x0 y0 q phi Rein s : ℝ)
  | sheet (x0 y0 kappa : ℝ)
  | shear (x0 y0 g1 g2 : ℝ)
  | jaffe (L : PJaffe)

namespace MassiveLens

/-- What its methods compute. -/
noncomputable def lens : MassiveLens → LensFn ℝ
  | sis x0 y0 Rein => sisLens x0 y0 Rein
  | point x0 y0 Rein => pointLens x0 y0 Rein
  | sie x0 y0 q phi Rein s => sieLens x0 y0 q phi Rein s
  | sheet x0 y0 kappa => sheetLens x0 y0 kappa
  | shear x0 y0 g1 g2 => shearLens x0 y0 g1 g2
  | jaffe L => jaffeLens L

/-- Physical parameter values. -/
def Ok : MassiveLens → Prop
  | sis _ _ Rein => 0 < Rein
  | point _ _ Rein => 0 < Rein
  | sie _ _ q _ Rein s => 0 < q ∧ q < 1 ∧ 0 < Rein ∧ (s = 0 ∨ 1e-6 ≤ s)
  | sheet _ _ kappa => 0 ≤ kappa
  | shear _ _ _ _ => True
  | jaffe L => L.Ok ∧ 0 < L.mass ∧ L.s = 0

/-- Convergence or shear at infinity. -/
noncomputable def atInfinity : MassiveLens → ℝ
  | sheet _ _ kappa => kappa
  | shear _ _ g1 g2 => √(g1 ^ 2 + g2 ^ 2)
  | sis _ _ _ => 0
  | point _ _ _ => 0
  | sie _ _ _ _ _ _ => 0
  | jaffe _ => 0

theorem massive (m : MassiveLens) (h : m.Ok) : Nonempty (m.lens.Massive (m.atInfinity / 2)) := by
  cases m with
  | sis x0 y0 Rein => rw [atInfinity, zero_div]; exact massive_sis x0 y0 Rein h
  | point x0 y0 Rein => rw [atInfinity, zero_div]; exact massive_point x0 y0 Rein h
  | sie x0 y0 q phi Rein s =>
    rw [atInfinity, zero_div]; exact massive_sie x0 y0 q phi Rein s h.1 h.2.1 h.2.2.1 h.2.2.2
  | sheet x0 y0 kappa => exact massive_sheet x0 y0 kappa h
  | shear x0 y0 g1 g2 => exact massive_shear x0 y0 g1 g2
  | jaffe L => rw [atInfinity, zero_div]; exact massive_jaffe L h.1 h.2.1 h.2.2

end MassiveLens

/-- A `SinglePlane` of any number of such lenses whose sheets and shears add up to less than one:
every source has an image; of all its images the one with the smallest `time_delay` exists, its
`convergence` is at most one and its `magnification` at least one (unless it is infinite). -/
theorem C92_single_plane (l : List MassiveLens) (hl : ∀ m ∈ l, m.Ok)
    (hsum : (l.map MassiveLens.atInfinity).sum < 1) (e : MPEnv ℝ) (z zs : ℝ)
    (hF : 0 < e.arcsec2ToDays (e.angDist z) (e.angDist zs) (e.angDist12 z zs) z) (bx bys : ℝ) :
    let S := singlePlane (l.map MassiveLens.lens)
    ∃ p : ℝ × ℝ, S.RegularAt p ∧ (S.thin z).raytrace p.1 p.2 = (bx, bys) ∧
      (∀ p' : ℝ × ℝ, S.RegularAt p' → (S.thin z).raytrace p'.1 p'.2 = (bx, bys) →
        (S.thin z).timeDelay e zs true true p.1 p.2 ≤ (S.thin z).timeDelay e zs true true p'.1 p'.2) ∧
      S.convergence p.1 p.2 ≤ 1 ∧
      ∃ M : M22 ℝ, HasJac (S.thin z).raytrace M.a00 M.a01 M.a10 M.a11 p.1 p.2 ∧
        0 ≤ M.a00 * M.a11 - M.a01 * M.a10 ∧
        (M.a00 * M.a11 - M.a01 * M.a10 ≠ 0 → 1 ≤ pixelMagnification M) := by
  intro S
  have hm := massive_singlePlane (l.map fun m => (m.lens, m.atInfinity / 2)) (by
    intro m hm
    obtain ⟨m', hm', rfl⟩ := List.mem_map.mp hm
    exact m'.massive (hl m' hm'))
  rw [List.map_map, List.map_map] at hm
  have e1 : (Prod.fst ∘ fun m : MassiveLens => (m.lens, m.atInfinity / 2)) = MassiveLens.lens := rfl
  have e2 : (l.map (Prod.snd ∘ fun m : MassiveLens => (m.lens, m.atInfinity / 2))).sum
      = (l.map MassiveLens.atInfinity).sum / 2 := by
    clear hm hl hsum S
    induction l with
    | nil => simp
    | cons m l ih =>
      rw [List.map_cons, List.sum_cons, List.map_cons, List.sum_cons, ih]
      simp only [Function.comp]
      ring
  rw [e1, e2] at hm
  obtain ⟨hm⟩ := hm
  have ha : (l.map MassiveLens.atInfinity).sum / 2 < 1 / 2 := by linarith
  obtain ⟨p, hreg, himg, hfirst⟩ := C92_exists S _ hm ha e z zs hF bx bys
  obtain ⟨axx, axy, ayy, hJ, -⟩ := hreg.2.1
  have hM : HasJac (S.thin z).raytrace (1 - axx) (0 - axy) (0 - axy) (1 - ayy) p.1 p.2 :=
    ⟨(HasGrad.fst p.1 p.2).sub hJ.1, (HasGrad.snd p.1 p.2).sub hJ.2⟩
  have h := C92_magnified S _ hm ha e z zs hF bx bys p hreg himg hfirst
    ⟨1 - axx, 0 - axy, 0 - axy, 1 - ayy⟩ hM
  exact ⟨p, hreg, himg, hfirst, h.1, _, hM, h.2.1, fun hne => (h.2.2 hne).1⟩

/-- Mass matters: behind a sheet of negative convergence the only image is fainter than the source. -/
theorem C92_void (M : M22 ℝ)
    (hM : HasJac ((sheetLens 0 0 (-1)).thin (1 / 2)).raytrace M.a00 M.a01 M.a10 M.a11 0 0) :
    pixelMagnification M = 1 / 4 := by
  have hx := ((HasGrad.fst 0 0).sub (HasGrad.const (0 : ℝ) 0 0)).mul (HasGrad.const (-1 : ℝ) 0 0)
  have hy := ((HasGrad.snd 0 0).sub (HasGrad.const (0 : ℝ) 0 0)).mul (HasGrad.const (-1 : ℝ) 0 0)
  have u1 := hM.1.unique ((HasGrad.fst 0 0).sub hx)
  have u2 := hM.2.unique ((HasGrad.snd 0 0).sub hy)
  rw [pixelMagnification, u1.1, u1.2, u2.1, u2.2]
  norm_num

/-- A galaxy with a companion, a star and the shear of its surroundings. -/
example (e : MPEnv ℝ) (z zs : ℝ)
    (hF : 0 < e.arcsec2ToDays (e.angDist z) (e.angDist zs) (e.angDist12 z zs) z) :
    ∃ p : ℝ × ℝ, ((singlePlane [sieLens 0 0 0.7 0.3 1.2 0, sisLens 1 2 0.1, pointLens 0.5 0.5 1e-3,
      shearLens 0 0 0.05 (-0.02)]).thin z).raytrace p.1 p.2 = (0.1, 0.2) := by
  have := C92_single_plane [.sie 0 0 0.7 0.3 1.2 0, .sis 1 2 0.1, .point 0.5 0.5 1e-3,
    .shear 0 0 0.05 (-0.02)] (by
      intro m hm
      simp only [List.mem_cons, List.not_mem_nil, or_false] at hm
      rcases hm with rfl | rfl | rfl | rfl
      · exact ⟨by norm_num, by norm_num, by norm_num, Or.inl rfl⟩
      · change (0 : ℝ) < 0.1; norm_num
      · change (0 : ℝ) < 1e-3; norm_num
      · trivial) (by
      simp only [List.map_cons, List.map_nil, MassiveLens.atInfinity, List.sum_cons, List.sum_nil,
        zero_add, add_zero]
      rw [Real.sqrt_lt' one_pos]
      norm_num) e z zs hF 0.1 0.2
  obtain ⟨p, -, hp, -⟩ := this
  exact ⟨p, hp⟩

end Caustics
