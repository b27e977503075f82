import Verif.Props.EPL
import Verif.Model.Lenses
import Mathlib.Analysis.SpecialFunctions.Trigonometric.Series
import Mathlib.Analysis.Convex.Mul
import Mathlib.Analysis.SpecialFunctions.Trigonometric.Bounds
import Mathlib.Analysis.SpecificLimits.Basic

/-! Lengths of vectors of the plane, and bounds of the elliptical isothermal and power-law deflections. -/

namespace Caustics

open Real

/-- Length of a vector. -/
noncomputable def len2 (p : ℝ × ℝ) : ℝ := √(p.1 ^ 2 + p.2 ^ 2)

theorem len2_eq_norm (p : ℝ × ℝ) : len2 p = ‖(⟨p.1, p.2⟩ : ℂ)‖ := by
  rw [Complex.norm_def, Complex.normSq_apply, len2]
  congr 1
  simp only
  ring

theorem len2_nonneg (p : ℝ × ℝ) : 0 ≤ len2 p := sqrt_nonneg _

theorem len2_add (p q : ℝ × ℝ) : len2 (p + q) ≤ len2 p + len2 q := by
  rw [len2_eq_norm, len2_eq_norm, len2_eq_norm]
  exact norm_add_le (⟨p.1, p.2⟩ : ℂ) ⟨q.1, q.2⟩

theorem len2_neg (p : ℝ × ℝ) : len2 (-p) = len2 p := by simp [len2]

theorem len2_sub_comm (p q : ℝ × ℝ) : len2 (p - q) = len2 (q - p) := by rw [← len2_neg, neg_sub]

theorem len2_zero : len2 0 = 0 := by simp [len2]

theorem len2_list_sum {ι : Type*} (l : List ι) (f : ι → ℝ × ℝ) (g : ι → ℝ) (h : ∀ i ∈ l, len2 (f i) ≤ g i) :
    len2 (l.map f).sum ≤ (l.map g).sum := by
  induction l with
  | nil => simp [len2_zero]
  | cons i l ih =>
    rw [List.map_cons, List.sum_cons, List.map_cons, List.sum_cons]
    exact (len2_add _ _).trans (add_le_add (h i (by simp)) (ih fun j hj => h j (by simp [hj])))

theorem len2_smul (k : ℝ) (p : ℝ × ℝ) : len2 (k * p.1, k * p.2) = |k| * len2 p := by
  simp only [len2]
  rw [show (k * p.1) ^ 2 + (k * p.2) ^ 2 = k ^ 2 * (p.1 ^ 2 + p.2 ^ 2) by ring, sqrt_mul (sq_nonneg k), sqrt_sq_eq_abs]

theorem len2_derotate (a b : ℝ) (phi : Option ℝ) : len2 (derotate a b phi) = len2 (a, b) := by
  cases phi with
  | none => rfl
  | some phi =>
    simp only [derotate, len2]
    congr 1
    linear_combination (a ^ 2 + b ^ 2) * sin_sq_add_cos_sq phi

theorem len2_translateRotate (x y x0 y0 : ℝ) (phi : Option ℝ) :
    len2 (translateRotate x y x0 y0 phi) = len2 (x - x0, y - y0) := by
  cases phi with
  | none => rfl
  | some phi =>
    simp only [translateRotate, len2]
    congr 1
    linear_combination ((x - x0) ^ 2 + (y - y0) ^ 2) * sin_sq_add_cos_sq phi

/-! ### Two inequalities between hyperbolic functions -/

theorem sq_add_pow_le (u v : ℝ) (n : ℕ) :
    (u ^ 2 + v ^ 2) ^ n ≤ ((u + v) ^ (2 * n) + (u - v) ^ (2 * n)) / 2 := by
  have h0 : ConvexOn ℝ (Set.Ici 0) fun x : ℝ => x ^ n := convexOn_pow n
  have h := h0.2 (Set.mem_Ici.2 (sq_nonneg (u + v))) (Set.mem_Ici.2 (sq_nonneg (u - v)))
    (show (0 : ℝ) ≤ 1 / 2 by norm_num) (show (0 : ℝ) ≤ 1 / 2 by norm_num) (by norm_num)
  simp only [smul_eq_mul] at h
  rw [show 1 / 2 * (u + v) ^ 2 + 1 / 2 * (u - v) ^ 2 = u ^ 2 + v ^ 2 by ring, ← pow_mul, ← pow_mul] at h
  linarith

theorem cosh_len_le (u v : ℝ) : cosh √(u ^ 2 + v ^ 2) ≤ cosh u * cosh v := by
  have e : cosh u * cosh v = (cosh (u + v) + cosh (u - v)) / 2 := by
    rw [cosh_add, cosh_sub]; ring
  rw [e]
  refine hasSum_le (fun n => ?_) (hasSum_cosh √(u ^ 2 + v ^ 2)) (((hasSum_cosh (u + v)).add (hasSum_cosh (u - v))).div_const 2)
  rw [pow_mul, sq_sqrt (by positivity), ← add_div, div_div, mul_comm ((2 * n).factorial : ℝ) 2, ← div_div]
  exact div_le_div_of_nonneg_right (sq_add_pow_le u v n) (by positivity)

theorem cosh_mul_cos_le {u : ℝ} (h : |u| ≤ π / 2) : cosh u * cos u ≤ 1 := by
  have key : ∀ w ∈ Set.Icc (0 : ℝ) (π / 2), cosh w * cos w ≤ 1 := by
    have hanti : AntitoneOn (fun w => cosh w * cos w) (Set.Icc 0 (π / 2)) := by
      refine antitoneOn_of_deriv_nonpos (convex_Icc _ _) (by fun_prop) (by fun_prop) fun w hw => ?_
      rw [interior_Icc] at hw
      have hd : HasDerivAt (fun w => cosh w * cos w) (sinh w * cos w + cosh w * (-sin w)) w :=
        (hasDerivAt_cosh w).mul (hasDerivAt_cos w)
      rw [hd.deriv]
      have hc : 0 < cos w := cos_pos_of_mem_Ioo ⟨by linarith [hw.1, pi_pos], hw.2⟩
      have h1 : w * cos w ≤ sin w := by
        have := le_tan hw.1.le hw.2
        rw [tan_eq_sin_div_cos, le_div_iff₀ hc] at this
        exact this
      have h2 : sinh w ≤ w * cosh w := by
        have hmono : MonotoneOn (fun w => w * cosh w - sinh w) (Set.Ici 0) := by
          refine monotoneOn_of_deriv_nonneg (convex_Ici _) (by fun_prop) (by fun_prop) fun v hv => ?_
          rw [interior_Ici] at hv
          have hd : HasDerivAt (fun w => w * cosh w - sinh w) (1 * cosh v + v * sinh v - cosh v) v :=
            ((hasDerivAt_id v).mul (hasDerivAt_cosh v)).sub (hasDerivAt_sinh v)
          rw [hd.deriv]
          have : 0 ≤ v * sinh v := mul_nonneg (le_of_lt hv) (sinh_nonneg_iff.2 (le_of_lt hv))
          linarith
        have := hmono (Set.mem_Ici.2 le_rfl) (Set.mem_Ici.2 hw.1.le) hw.1.le
        simp only [zero_mul, sinh_zero, sub_zero] at this
        linarith
      have h3 : sinh w * cos w ≤ cosh w * (w * cos w) := by nlinarith
      nlinarith [cosh_pos w]
    intro w hw
    have := hanti ⟨le_rfl, by linarith [pi_pos]⟩ hw hw.1
    simpa using this
  have := key |u| ⟨abs_nonneg u, h⟩
  rwa [cosh_abs, cos_abs] at this

/-! ### Isothermal ellipsoid -/

theorem sie_frame_le {q f s X Y : ℝ} (hq : 0 < q) (hf0 : 0 < f) (hf : f ^ 2 = 1 - q ^ 2) (hs : 0 ≤ s) :
    len2 (arctan (f * X / (√(q ^ 2 * (X ^ 2 + s ^ 2) + Y ^ 2) + s)),
      artanh (f * Y / (√(q ^ 2 * (X ^ 2 + s ^ 2) + Y ^ 2) + q ^ 2 * s))) ≤ artanh f := by
  have hf1 : f < 1 := by nlinarith
  have hV : 0 ≤ artanh f := artanh_nonneg hf0.le
  set u := arctan (f * X / (√(q ^ 2 * (X ^ 2 + s ^ 2) + Y ^ 2) + s)) with hu
  set w := f * Y / (√(q ^ 2 * (X ^ 2 + s ^ 2) + Y ^ 2) + q ^ 2 * s) with hw
  rcases eq_or_ne (X, Y) (0, 0) with h0 | h0
  · simp only [Prod.mk.injEq] at h0
    rw [hu, hw, h0.1, h0.2]
    simp [len2, hV]
  have hp0 : 0 < q ^ 2 * X ^ 2 + Y ^ 2 := by
    by_contra hn
    have h1 : q ^ 2 * X ^ 2 = 0 := le_antisymm (by nlinarith [sq_nonneg Y]) (by positivity)
    have h2 : Y ^ 2 = 0 := le_antisymm (by nlinarith [sq_nonneg (q * X)]) (by positivity)
    have hX : X = 0 := by
      rcases mul_eq_zero.1 h1 with h | h
      · exact absurd h (by positivity)
      · exact pow_eq_zero_iff two_ne_zero |>.1 h
    exact h0 (by rw [hX, pow_eq_zero_iff two_ne_zero |>.1 h2])
  set P := √(q ^ 2 * (X ^ 2 + s ^ 2) + Y ^ 2) with hP
  have hPP : P ^ 2 = q ^ 2 * (X ^ 2 + s ^ 2) + Y ^ 2 := sq_sqrt (by positivity)
  have hPpos : 0 < P := sqrt_pos.2 (by nlinarith [mul_nonneg (sq_nonneg q) (sq_nonneg s)])
  have hqs : 0 ≤ q ^ 2 * s := by positivity
  -- both arguments are at most those without core
  have hw2 : w ^ 2 ≤ f ^ 2 * Y ^ 2 / (q ^ 2 * X ^ 2 + Y ^ 2) := by
    rw [hw, div_pow, mul_pow]
    refine div_le_div_of_nonneg_left (by positivity) hp0 ?_
    nlinarith [mul_nonneg (sq_nonneg q) (sq_nonneg s), mul_nonneg hPpos.le hqs]
  have ht2 : (f * X / (P + s)) ^ 2 ≤ f ^ 2 * X ^ 2 / (q ^ 2 * X ^ 2 + Y ^ 2) := by
    rw [div_pow, mul_pow]
    refine div_le_div_of_nonneg_left (by positivity) hp0 ?_
    nlinarith [mul_nonneg (sq_nonneg q) (sq_nonneg s), mul_nonneg hPpos.le hs]
  have hw1 : w ^ 2 < 1 := by
    refine lt_of_le_of_lt hw2 ?_
    rw [div_lt_one hp0, hf]
    have hXY : 0 < X ^ 2 + Y ^ 2 := by
      rcases eq_or_ne X 0 with hX | hX
      · have : Y ≠ 0 := fun hY => h0 (by rw [hX, hY])
        positivity
      · positivity
    nlinarith [mul_pos (pow_pos hq 2) hXY]
  have hwI : w ∈ Set.Ioo (-1 : ℝ) 1 := abs_lt.1 (abs_lt_of_sq_lt_sq (by rwa [one_pow]) zero_le_one)
  have hcu : 0 < cos u := cos_arctan_pos _
  have hcosu : cos u = 1 / √(1 + (f * X / (P + s)) ^ 2) := cos_arctan _
  have hu2 : |u| ≤ π / 2 := abs_le.2 ⟨(neg_pi_div_two_lt_arctan _).le, (arctan_lt_pi_div_two _).le⟩
  have h1 : cosh u ≤ √(1 + (f * X / (P + s)) ^ 2) := by
    have := cosh_mul_cos_le hu2
    rw [hcosu, mul_one_div, div_le_one (sqrt_pos.2 (by positivity))] at this
    exact this
  have h2 : cosh (artanh w) = 1 / √(1 - w ^ 2) := cosh_artanh hwI
  have h3 : √(1 + (f * X / (P + s)) ^ 2) * (1 / √(1 - w ^ 2)) ≤ 1 / q := by
    rw [mul_one_div, div_le_div_iff₀ (sqrt_pos.2 (by linarith)) hq, one_mul]
    refine le_sqrt_of_sq_le ?_
    rw [mul_pow, sq_sqrt (by positivity)]
    have e1 : 1 + f ^ 2 * X ^ 2 / (q ^ 2 * X ^ 2 + Y ^ 2) = (X ^ 2 + Y ^ 2) / (q ^ 2 * X ^ 2 + Y ^ 2) := by
      rw [hf]; field_simp; ring
    have e2 : 1 - f ^ 2 * Y ^ 2 / (q ^ 2 * X ^ 2 + Y ^ 2) = q ^ 2 * ((X ^ 2 + Y ^ 2) / (q ^ 2 * X ^ 2 + Y ^ 2)) := by
      rw [hf]; field_simp; ring
    calc (1 + (f * X / (P + s)) ^ 2) * q ^ 2 ≤ (1 + f ^ 2 * X ^ 2 / (q ^ 2 * X ^ 2 + Y ^ 2)) * q ^ 2 := by gcongr
      _ = 1 - f ^ 2 * Y ^ 2 / (q ^ 2 * X ^ 2 + Y ^ 2) := by rw [e1, e2]; ring
      _ ≤ 1 - w ^ 2 := by linarith
  have h4 : cosh (artanh f) = 1 / q := by
    rw [cosh_artanh ⟨by linarith, hf1⟩, show 1 - f ^ 2 = q ^ 2 by rw [hf]; ring, sqrt_sq hq.le]
  have h5 : cosh (len2 (u, artanh w)) ≤ cosh (artanh f) := by
    rw [h4]
    refine (cosh_len_le u (artanh w)).trans ?_
    rw [h2]
    exact (mul_le_mul_of_nonneg_right h1 (by positivity)).trans h3
  have h6 := cosh_le_cosh.1 h5
  rwa [abs_of_nonneg (len2_nonneg _), abs_of_nonneg hV] at h6

/-! ### Power law -/

theorem eplSum_norm {t f : ℝ} (h0 : 0 < t) (h2 : t < 2) (hf0 : 0 ≤ f) (hf1 : f < 1) (z phi : ℂ) (hphi : ‖phi‖ ≤ f) (N : ℕ) :
    ‖eplSum z phi t N‖ ≤ ‖z‖ / (1 - f) := by
  rw [eplSum, mul_comm, Finset.sum_mul]
  calc _ ≤ ∑ n ∈ Finset.range N, ‖(eplCoef t n : ℂ) * phi ^ n * z‖ := norm_sum_le _ _
    _ ≤ ∑ n ∈ Finset.range N, f ^ n * ‖z‖ := by
        refine Finset.sum_le_sum fun n _ => ?_
        rw [norm_mul, norm_mul, norm_pow, Complex.norm_real, Real.norm_eq_abs]
        refine mul_le_mul_of_nonneg_right ?_ (norm_nonneg _)
        calc |eplCoef t n| * ‖phi‖ ^ n ≤ 1 * f ^ n :=
              mul_le_mul (by rw [abs_of_pos (eplCoef_mem h0 h2 n).1]; exact (eplCoef_mem h0 h2 n).2) (pow_le_pow_left₀ (norm_nonneg _) hphi n) (by positivity) zero_le_one
          _ = f ^ n := one_mul _
    _ = (∑ n ∈ Finset.range N, f ^ n) * ‖z‖ := by rw [Finset.sum_mul]
    _ ≤ (1 - f)⁻¹ * ‖z‖ := by
        refine mul_le_mul_of_nonneg_right ?_ (norm_nonneg _)
        rw [← tsum_geometric_of_lt_one hf0 hf1]
        exact (summable_geometric_of_lt_one hf0 hf1).sum_le_tsum _ fun n _ => by positivity
    _ = ‖z‖ / (1 - f) := by rw [div_eq_inv_mul]

end Caustics
