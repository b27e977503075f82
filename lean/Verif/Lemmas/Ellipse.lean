import Mathlib.Analysis.SpecialFunctions.Pow.Continuity
import Mathlib.Topology.Algebra.Module.Cardinality

/-! Two ellipses with proportional radii are the same ellipse. -/

open Real

namespace Caustics

/-- The squared elliptical radius, about the origin, of axis ratio `q` at position angle `phi`. -/
noncomputable def ellipseForm (q phi u v : ℝ) : ℝ :=
  q ^ 2 * (u * cos phi + v * sin phi) ^ 2 + (v * cos phi - u * sin phi) ^ 2

theorem ellipseForm_pos {q : ℝ} (hq : 0 < q) (phi : ℝ) {u v : ℝ} (h : (u, v) ≠ (0, 0)) : 0 < ellipseForm q phi u v := by
  have h1 : (u * cos phi + v * sin phi) ^ 2 + (v * cos phi - u * sin phi) ^ 2 = u ^ 2 + v ^ 2 := by
    have := sin_sq_add_cos_sq phi
    linear_combination (u ^ 2 + v ^ 2) * this
  have h2 : 0 < u ^ 2 + v ^ 2 := by
    by_contra h0
    push Not at h0
    exact h (by rw [show u = 0 by nlinarith [sq_nonneg u, sq_nonneg v], show v = 0 by nlinarith [sq_nonneg u, sq_nonneg v]])
  unfold ellipseForm
  by_cases h3 : u * cos phi + v * sin phi = 0
  · rw [h3] at h1 ⊢
    nlinarith
  · have := pow_pos hq 2
    have := sq_nonneg (v * cos phi - u * sin phi)
    positivity

theorem ellipseForm_scale (q phi l u v : ℝ) : ellipseForm q phi (l * u) (l * v) = l ^ 2 * ellipseForm q phi u v := by
  unfold ellipseForm; ring

theorem ellipseForm_zero (q phi : ℝ) : ellipseForm q phi 0 0 = 0 := by simp [ellipseForm]

theorem ellipseForm_continuous (q phi x0 y0 : ℝ) : Continuous fun p : ℝ × ℝ => ellipseForm q phi (p.1 - x0) (p.2 - y0) := by
  unfold ellipseForm; fun_prop

/-- Two angles that differ by a multiple of `π` turn an ellipse to the same place. -/
theorem ellipseForm_add (q phi : ℝ) (k : ℤ) (u v : ℝ) : ellipseForm q (phi + k * π) u v = ellipseForm q phi u v := by
  unfold ellipseForm
  rw [cos_add_int_mul_pi, sin_add_int_mul_pi]
  have h : ((-1 : ℝ) ^ k) ^ 2 = 1 := by
    rw [← zpow_natCast, ← zpow_mul, mul_comm, zpow_mul]; norm_num
  linear_combination (q ^ 2 * (u * cos phi + v * sin phi) ^ 2 + (v * cos phi - u * sin phi) ^ 2) * h

theorem ellipseForm_one (phi phi' u v : ℝ) : ellipseForm 1 phi u v = ellipseForm 1 phi' u v := by
  unfold ellipseForm
  linear_combination (u ^ 2 + v ^ 2) * sin_sq_add_cos_sq phi - (u ^ 2 + v ^ 2) * sin_sq_add_cos_sq phi'

theorem ellipseForm_inj {k q q' phi phi' : ℝ} (hk : 0 < k) (hq : 0 < q) (hq1 : q ≤ 1) (hq' : 0 < q') (hq1' : q' ≤ 1)
    (h : ∀ u v, k * ellipseForm q phi u v = ellipseForm q' phi' u v) :
    k = 1 ∧ q' = q ∧ (q = 1 ∨ ∃ n : ℤ, phi' = phi + n * π) := by
  have h1 := h 1 0
  have h2 := h 0 1
  have h3 := h 1 1
  simp only [ellipseForm] at h1 h2 h3
  have e := sin_sq_add_cos_sq phi
  have e' := sin_sq_add_cos_sq phi'
  have hs : k * (1 + q ^ 2) = 1 + q' ^ 2 := by linear_combination h1 + h2 - k * (1 + q ^ 2) * e + (1 + q' ^ 2) * e'
  have hc : k * (1 - q ^ 2) * cos (2 * phi) = (1 - q' ^ 2) * cos (2 * phi') := by
    rw [cos_two_mul', cos_two_mul']; linear_combination h2 - h1
  have hn : k * (1 - q ^ 2) * sin (2 * phi) = (1 - q' ^ 2) * sin (2 * phi') := by
    rw [sin_two_mul, sin_two_mul]; linear_combination h1 + h2 - h3
  have hsq : (k * (1 - q ^ 2)) ^ 2 = (1 - q' ^ 2) ^ 2 := by
    have e2 := sin_sq_add_cos_sq (2 * phi)
    have e2' := sin_sq_add_cos_sq (2 * phi')
    linear_combination (k * (1 - q ^ 2) * sin (2 * phi) + (1 - q' ^ 2) * sin (2 * phi')) * hn
      + (k * (1 - q ^ 2) * cos (2 * phi) + (1 - q' ^ 2) * cos (2 * phi')) * hc
      - (k * (1 - q ^ 2)) ^ 2 * e2 + (1 - q' ^ 2) ^ 2 * e2'
  have p1 : 0 ≤ k * (1 - q ^ 2) := mul_nonneg hk.le (by nlinarith)
  have p2 : 0 ≤ 1 - q' ^ 2 := by nlinarith
  have hd := (pow_left_inj₀ p1 p2 two_ne_zero).1 hsq
  have hk1 : k = 1 := by linarith
  subst hk1
  have hqq : q' = q := by
    refine (pow_left_inj₀ hq'.le hq.le two_ne_zero).1 ?_
    linarith
  subst hqq
  refine ⟨rfl, rfl, ?_⟩
  rcases hq1.eq_or_lt with h1 | h1
  · exact Or.inl h1
  right
  have hne : 1 - q' ^ 2 ≠ 0 := by nlinarith
  rw [one_mul] at hc hn
  have hc := mul_left_cancel₀ hne hc
  have hn := mul_left_cancel₀ hne hn
  have hs0 : sin (phi' - phi) = 0 := by
    have : cos (2 * (phi' - phi)) = 1 := by
      rw [mul_sub, cos_sub, ← hc, ← hn]; linear_combination sin_sq_add_cos_sq (2 * phi)
    rw [cos_two_mul'] at this
    have := sin_sq_add_cos_sq (phi' - phi)
    nlinarith
  obtain ⟨n, hn⟩ := sin_eq_zero_iff.1 hs0
  exact ⟨n, by linarith⟩

/-- Powers of two elliptical radii that are proportional away from the centres belong to one ellipse. -/
theorem ellipse_pow_inj {K a b q q' phi phi' x0 y0 x0' y0' : ℝ} (hK : 0 < K) (ha : 0 < a) (hb : 0 < b)
    (hq : 0 < q) (hq1 : q ≤ 1) (hq' : 0 < q') (hq1' : q' ≤ 1)
    (h : ∀ x y, (x, y) ≠ (x0, y0) → (x, y) ≠ (x0', y0') →
      K * ellipseForm q phi (x - x0) (y - y0) ^ a = ellipseForm q' phi' (x - x0') (y - y0') ^ b) :
    x0' = x0 ∧ y0' = y0 ∧ b = a ∧ K = 1 ∧ q' = q ∧ (q = 1 ∨ ∃ n : ℤ, phi' = phi + n * π) := by
  have hall : (fun p : ℝ × ℝ => K * ellipseForm q phi (p.1 - x0) (p.2 - y0) ^ a) =
      fun p : ℝ × ℝ => ellipseForm q' phi' (p.1 - x0') (p.2 - y0') ^ b := by
    refine Continuous.ext_on (s := ({(x0, y0), (x0', y0')} : Set (ℝ × ℝ))ᶜ)
      (Set.Countable.dense_compl ℝ (Set.to_countable _)) ?_ ?_ ?_
    · exact continuous_const.mul ((ellipseForm_continuous q phi x0 y0).rpow_const fun _ => Or.inr ha.le)
    · exact (ellipseForm_continuous q' phi' x0' y0').rpow_const fun _ => Or.inr hb.le
    · rintro ⟨x, y⟩ hp
      simp only [Set.mem_compl_iff, Set.mem_insert_iff, Set.mem_singleton_iff, not_or] at hp
      exact h x y hp.1 hp.2
  have hall' : ∀ x y, K * ellipseForm q phi (x - x0) (y - y0) ^ a = ellipseForm q' phi' (x - x0') (y - y0') ^ b :=
    fun x y => congrFun hall (x, y)
  have hc : (x0, y0) = (x0', y0') := by
    by_contra hne
    have h0 := hall' x0 y0
    rw [sub_self, sub_self, ellipseForm_zero, zero_rpow ha.ne', mul_zero] at h0
    have := rpow_pos_of_pos (ellipseForm_pos hq' phi' (u := x0 - x0') (v := y0 - y0') (by
      intro h; apply hne; simp only [Prod.mk.injEq, sub_eq_zero] at h ⊢; exact h)) b
    linarith
  simp only [Prod.mk.injEq] at hc
  obtain ⟨rfl, rfl⟩ := hc
  have hE : ∀ u v, K * ellipseForm q phi u v ^ a = ellipseForm q' phi' u v ^ b := fun u v => by
    have := hall' (x0 + u) (y0 + v)
    rwa [add_sub_cancel_left, add_sub_cancel_left] at this
  have p1 := ellipseForm_pos hq phi (u := 1) (v := 0) (by simp)
  have p2 := ellipseForm_pos hq' phi' (u := 1) (v := 0) (by simp)
  have hab : b = a := by
    have e1 := hE 1 0
    have e2 := hE (2 * 1) (2 * 0)
    rw [ellipseForm_scale, ellipseForm_scale, mul_rpow (by norm_num) p1.le, mul_rpow (by norm_num) p2.le, ← e1] at e2
    have hA := mul_pos hK (rpow_pos_of_pos p1 a)
    have e3 : ((2 : ℝ) ^ 2) ^ a = ((2 : ℝ) ^ 2) ^ b := by
      refine mul_right_cancel₀ hA.ne' ?_
      linarith
    exact ((strictMono_rpow_of_base_gt_one (by norm_num)).injective e3).symm
  subst hab
  have hQ : ∀ u v, K ^ (1 / b) * ellipseForm q phi u v = ellipseForm q' phi' u v := by
    intro u v
    by_cases h0 : (u, v) = (0, 0)
    · simp only [Prod.mk.injEq] at h0
      rw [h0.1, h0.2, ellipseForm_zero, ellipseForm_zero, mul_zero]
    · have p1 := ellipseForm_pos hq phi h0
      have p2 := ellipseForm_pos hq' phi' h0
      refine (rpow_left_inj (by positivity) p2.le hb.ne').1 ?_
      rw [mul_rpow (by positivity) p1.le, ← rpow_mul hK.le, one_div_mul_cancel hb.ne', rpow_one]
      exact hE u v
  obtain ⟨k1, hqq, hph⟩ := ellipseForm_inj (rpow_pos_of_pos hK _) hq hq1 hq' hq1' hQ
  refine ⟨rfl, rfl, rfl, ?_, hqq, hph⟩
  have := congrArg (· ^ b) k1
  simpa only [← rpow_mul hK.le, one_div_mul_cancel hb.ne', rpow_one, one_rpow] using this

end Caustics
