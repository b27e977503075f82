import Mathlib.Analysis.SpecialFunctions.Complex.Arctan
import Mathlib.Analysis.SpecialFunctions.Artanh
import Mathlib.Analysis.SpecificLimits.Normed
import Mathlib.Tactic.Positivity
import Mathlib.Tactic.Linarith
import Mathlib.Tactic.FieldSimp
import Mathlib.Tactic.LinearCombination

/-! # The complex arctangent: doubling, real and imaginary part, remainder of the series -/

namespace Caustics

open Complex Finset

/-- Inside the unit disc the real part of the arctangent is less than a quarter turn in size. -/
theorem arctan_re_lt {z : ℂ} (hz : ‖z‖ < 1) : |(Complex.arctan z).re| < Real.pi / 4 := by
  have h1 : ‖z * I‖ < 1 := by simpa using hz
  have hne : (1 - z * I) ≠ 0 := by
    intro h
    have : z * I = 1 := (sub_eq_zero.mp h).symm
    rw [this] at h1
    simp at h1
  have hre : 0 < ((1 + z * I) / (1 - z * I)).re := by
    have hn : 0 < normSq (1 - z * I) := normSq_pos.mpr hne
    have hz2 : z.re ^ 2 + z.im ^ 2 < 1 := by
      have := (sq_lt_one_iff₀ (norm_nonneg z)).mpr hz
      rw [Complex.sq_norm, normSq_apply] at this
      nlinarith
    rw [div_re]
    rw [← add_div]
    apply div_pos _ hn
    simp
    nlinarith
  have harg : |((1 + z * I) / (1 - z * I)).arg| < Real.pi / 2 :=
    abs_arg_lt_pi_div_two_iff.mpr (Or.inl hre)
  have : (Complex.arctan z).re = ((1 + z * I) / (1 - z * I)).arg / 2 := by
    rw [Complex.arctan, ← log_im]
    simp [mul_re]
    ring
  rw [this, abs_div, abs_two]
  linarith

/-- Doubling. -/
theorem two_arctan {z : ℂ} (hz : ‖z‖ < 1) :
    2 * Complex.arctan z = Complex.arctan (2 * z / (1 - z ^ 2)) := by
  have hI : z ≠ I := by rintro rfl; simp at hz
  have hI' : z ≠ -I := by rintro rfl; simp at hz
  have ht := tan_arctan hI hI'
  have h := arctan_re_lt hz
  rw [abs_lt] at h
  have hp := Real.pi_pos
  have e : Complex.tan (2 * Complex.arctan z) = 2 * z / (1 - z ^ 2) := by
    rw [Complex.tan_two_mul, ht]
  rw [← e, Complex.arctan_tan]
  · intro h0
    have := congrArg Complex.re h0
    simp at this
    have h2 : ((Real.pi : ℂ) / 2).re = Real.pi / 2 := by
      rw [show ((Real.pi : ℂ) / 2) = ((Real.pi / 2 : ℝ) : ℂ) by push_cast; ring, ofReal_re]
    linarith
  · simp; linarith
  · simp; linarith

/-- Real and imaginary part of an arctangent. -/
theorem arctan_split (T H : ℝ) (hH : |H| < 1) :
    Complex.arctan ((T + H * I) / (1 - T * H * I)) = Real.arctan T + Real.artanh H * I := by
  have hH' : H ∈ Set.Ioo (-1 : ℝ) 1 := abs_lt.mp hH
  have h1 := Real.neg_pi_div_two_lt_arctan T
  have h2 := Real.arctan_lt_pi_div_two T
  have hc1 : Complex.cos (Real.arctan T) ≠ 0 := by
    rw [← Complex.ofReal_cos]
    exact_mod_cast (Real.cos_arctan_pos T).ne'
  have hc2 : Complex.cos ((Real.artanh H : ℂ) * I) ≠ 0 := by
    rw [Complex.cos_mul_I, ← Complex.ofReal_cosh]
    exact_mod_cast (Real.cosh_pos _).ne'
  have ht : Complex.tan (Real.arctan T + Real.artanh H * I) = (T + H * I) / (1 - T * H * I) := by
    rw [Complex.tan_add_mul_I]
    · rw [← Complex.ofReal_tan, ← Complex.ofReal_tanh, Real.tan_arctan, Real.tanh_artanh hH']
    · left
      constructor
      · intro k hk
        exact hc1 (Complex.cos_eq_zero_iff.mpr ⟨k, hk⟩)
      · intro k hk
        exact hc2 (Complex.cos_eq_zero_iff.mpr ⟨k, hk⟩)
  have hre : ((Real.arctan T : ℂ) + Real.artanh H * I).re = Real.arctan T := by
    rw [add_re, ofReal_re, re_ofReal_mul, I_re, mul_zero, add_zero]
  rw [← ht, Complex.arctan_tan]
  · intro h0
    have := congrArg Complex.re h0
    rw [hre, show ((Real.pi : ℂ) / 2) = ((Real.pi / 2 : ℝ) : ℂ) by push_cast; ring, ofReal_re] at this
    linarith
  · rw [hre]; exact h1
  · rw [hre]; exact h2.le

/-- What is left of the series after `N` terms. -/
theorem arctan_remainder {z : ℂ} (hz : ‖z‖ < 1) (N : ℕ) :
    ‖∑ n ∈ range N, (-1) ^ n * z ^ (2 * n + 1) / ((2 * n + 1 : ℕ) : ℂ) - Complex.arctan z‖
      ≤ ‖z‖ ^ (2 * N + 1) / ((2 * N + 1) * (1 - ‖z‖ ^ 2)) := by
  have hz0 := norm_nonneg z
  have hz2 : ‖z‖ ^ 2 < 1 := (sq_lt_one_iff₀ hz0).mpr hz
  have h := Complex.hasSum_arctan hz
  have h' := (hasSum_nat_add_iff' N).mpr h
  have hg := (hasSum_geometric_of_lt_one (sq_nonneg ‖z‖) hz2).mul_left
    (‖z‖ ^ (2 * N + 1) / (2 * N + 1))
  rw [norm_sub_rev]
  refine (h'.norm_le_of_bounded hg fun n => ?_).trans (le_of_eq ?_)
  · rw [norm_div, norm_mul, norm_pow, norm_pow, norm_neg, norm_one, one_pow, one_mul,
      Complex.norm_natCast]
    rw [show 2 * (n + N) + 1 = 2 * N + 1 + 2 * n by ring, pow_add, pow_mul ‖z‖ 2 n, mul_div_right_comm]
    apply mul_le_mul_of_nonneg_right _ (by positivity)
    apply div_le_div_of_nonneg_left (by positivity) (by positivity)
    push_cast
    linarith [(Nat.cast_nonneg n : (0 : ℝ) ≤ n)]
  · rw [← div_eq_mul_inv, div_div]

end Caustics
