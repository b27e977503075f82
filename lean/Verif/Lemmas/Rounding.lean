import Verif.Model.Rounding
import Mathlib.Tactic.LinearCombination
import Mathlib.Tactic.FieldSimp

/-! Error analysis: numbers that agree up to a given count of roundings. -/

open Real

namespace Caustics

/-- `a` is `b` up to `k` roundings: their quotient lies between `(1 - u)^k` and its inverse. -/
def Near (u : ℝ) (k : ℕ) (a b : ℝ) : Prop := ∃ t, a = b * t ∧ (1 - u) ^ k ≤ t ∧ t * (1 - u) ^ k ≤ 1

namespace Near

variable {u a b c d : ℝ} {k l : ℕ}

theorem refl (a : ℝ) : Near u 0 a a := ⟨1, by ring, by simp, by simp⟩

theorem of_round (h0 : 0 ≤ u) (h1 : u < 1) (h : |a - b| ≤ u * |b|) : Near u 1 a b := by
  rcases eq_or_ne b 0 with rfl | hb
  · rw [abs_zero, mul_zero] at h
    have := abs_nonpos_iff.1 h
    exact ⟨1, by linarith, by simpa using h0, by simpa using h0⟩
  · refine ⟨a / b, (mul_div_cancel₀ a hb).symm, ?_⟩
    have h2 : |a / b - 1| ≤ u := by
      rw [show a / b - 1 = (a - b) / b by field_simp, abs_div, div_le_iff₀ (abs_pos.2 hb)]
      exact h
    rw [abs_le] at h2
    constructor
    · rw [pow_one]; linarith
    · rw [pow_one]
      nlinarith [h2.2, mul_nonneg h0 h0]

theorem mono (h0 : 0 ≤ u) (h1 : u < 1) (hk : k ≤ l) (h : Near u k a b) : Near u l a b := by
  obtain ⟨t, rfl, h2, h3⟩ := h
  have hp : (1 - u) ^ l ≤ (1 - u) ^ k := pow_le_pow_of_le_one (by linarith) (by linarith) hk
  have ht : 0 ≤ t := le_trans (pow_nonneg (by linarith) k) h2
  exact ⟨t, rfl, hp.trans h2, (mul_le_mul_of_nonneg_left hp ht).trans h3⟩

theorem pos_factor (h1 : u < 1) (h : Near u k a b) : ∃ t, 0 < t ∧ a = b * t ∧ (1 - u) ^ k ≤ t ∧ t * (1 - u) ^ k ≤ 1 := by
  obtain ⟨t, h2, h3, h4⟩ := h
  exact ⟨t, lt_of_lt_of_le (pow_pos (by linarith) k) h3, h2, h3, h4⟩

theorem trans (h1 : u < 1) (h : Near u k a b) (h' : Near u l b c) : Near u (k + l) a c := by
  obtain ⟨t, ht, rfl, h2, h3⟩ := h.pos_factor h1
  obtain ⟨s, hs, rfl, h4, h5⟩ := h'.pos_factor h1
  have hk : 0 ≤ (1 - u) ^ k := pow_nonneg (by linarith) k
  have hl : 0 ≤ (1 - u) ^ l := pow_nonneg (by linarith) l
  refine ⟨s * t, by ring, ?_, ?_⟩
  · rw [pow_add, mul_comm]
    exact mul_le_mul h4 h2 hk hs.le
  · rw [pow_add, show s * t * ((1 - u) ^ k * (1 - u) ^ l) = (t * (1 - u) ^ k) * (s * (1 - u) ^ l) by ring]
    exact mul_le_one₀ h3 (mul_nonneg hs.le hl) h5

theorem mul (h1 : u < 1) (h : Near u k a b) (h' : Near u l c d) : Near u (k + l) (a * c) (b * d) := by
  obtain ⟨t, ht, rfl, h2, h3⟩ := h.pos_factor h1
  obtain ⟨s, hs, rfl, h4, h5⟩ := h'.pos_factor h1
  refine trans h1 (b := b * d * s) ⟨t, by ring, h2, h3⟩ ⟨s, rfl, h4, h5⟩

theorem inv (h1 : u < 1) (h : Near u k a b) : Near u k a⁻¹ b⁻¹ := by
  obtain ⟨t, ht, rfl, h2, h3⟩ := h.pos_factor h1
  refine ⟨t⁻¹, mul_inv _ _, ?_, ?_⟩
  · rw [le_inv_comm₀ (pow_pos (by linarith) k) ht, ← one_div, le_div_iff₀ (pow_pos (by linarith) k)]
    exact h3
  · rw [mul_comm, ← div_eq_mul_inv, div_le_one ht]
    exact h2

theorem div (h1 : u < 1) (h : Near u k a b) (h' : Near u l c d) : Near u (k + l) (a / c) (b / d) := by
  rw [div_eq_mul_inv, div_eq_mul_inv]
  exact h.mul h1 (h'.inv h1)

theorem add (h1 : u < 1) (hb : 0 ≤ b) (hd : 0 ≤ d) (h : Near u k a b) (h' : Near u k c d) : Near u k (a + c) (b + d) := by
  obtain ⟨t, ht, rfl, h2, h3⟩ := h.pos_factor h1
  obtain ⟨s, hs, rfl, h4, h5⟩ := h'.pos_factor h1
  have hk : (0 : ℝ) < (1 - u) ^ k := pow_pos (by linarith) k
  rcases (add_nonneg hb hd).eq_or_lt with h0 | h0
  · have e1 : b = 0 := by linarith
    have e2 : d = 0 := by linarith
    subst e1 e2
    exact ⟨t, by ring, h2, h3⟩
  · refine ⟨(b * t + d * s) / (b + d), by field_simp, ?_, ?_⟩
    · rw [le_div_iff₀ h0]
      nlinarith [mul_le_mul_of_nonneg_left h2 hb, mul_le_mul_of_nonneg_left h4 hd]
    · rw [div_mul_eq_mul_div, div_le_one h0]
      nlinarith [mul_le_mul_of_nonneg_left h3 hb, mul_le_mul_of_nonneg_left h5 hd]

theorem sqrt (h1 : u < 1) (h : Near u (2 * k) a b) : Near u k √a √b := by
  obtain ⟨t, ht, rfl, h2, h3⟩ := h.pos_factor h1
  have hk : (0 : ℝ) < (1 - u) ^ k := pow_pos (by linarith) k
  rw [mul_comm 2, pow_mul] at h2 h3
  refine ⟨√t, sqrt_mul' _ ht.le, le_sqrt_of_sq_le h2, ?_⟩
  rw [← sqrt_sq hk.le, ← sqrt_mul ht.le]
  exact sqrt_le_one.2 h3

theorem ne_zero (h1 : u < 1) (h : Near u k a b) (hb : b ≠ 0) : a ≠ 0 := by
  obtain ⟨t, ht, rfl, -⟩ := h.pos_factor h1
  exact mul_ne_zero hb ht.ne'

theorem nonneg (h1 : u < 1) (h : Near u k a b) (hb : 0 ≤ b) : 0 ≤ a := by
  obtain ⟨t, ht, rfl, -⟩ := h.pos_factor h1
  exact mul_nonneg hb ht.le

/-- The error in terms of the exact value. -/
theorem error (h1 : u < 1) (h0 : 0 ≤ u) (h : Near u k a b) : |a - b| ≤ (((1 - u) ^ k)⁻¹ - 1) * |b| := by
  obtain ⟨t, ht, rfl, h2, h3⟩ := h.pos_factor h1
  have hk : (0 : ℝ) < (1 - u) ^ k := pow_pos (by linarith) k
  have hk1 : (1 - u) ^ k ≤ 1 := pow_le_one₀ (by linarith) (by linarith)
  rw [show b * t - b = b * (t - 1) by ring, abs_mul, mul_comm]
  refine mul_le_mul_of_nonneg_right ?_ (abs_nonneg b)
  have h4 : t ≤ ((1 - u) ^ k)⁻¹ := by rw [← one_div, le_div_iff₀ hk]; exact h3
  rw [abs_le]
  refine ⟨?_, by linarith⟩
  have h5 : ((1 - u) ^ k)⁻¹ * (1 - u) ^ k = 1 := inv_mul_cancel₀ hk.ne'
  have h6 : 1 ≤ ((1 - u) ^ k)⁻¹ := (one_le_inv₀ hk).2 hk1
  nlinarith [sq_nonneg (1 - (1 - u) ^ k)]

end Near

/-- What `k` roundings can add, as a fraction. -/
noncomputable def roundings (u : ℝ) (k : ℕ) : ℝ := ((1 - u) ^ k)⁻¹ - 1

theorem roundings_nonneg {u : ℝ} (h0 : 0 ≤ u) (h1 : u < 1) (k : ℕ) : 0 ≤ roundings u k := by
  have hk : (0 : ℝ) < (1 - u) ^ k := pow_pos (by linarith) k
  have hk1 : (1 - u) ^ k ≤ 1 := pow_le_one₀ (by linarith) (by linarith)
  have := (one_le_inv₀ hk).2 hk1
  unfold roundings
  linarith

theorem roundings_mono {u : ℝ} (h0 : 0 ≤ u) (h1 : u < 1) {k l : ℕ} (h : k ≤ l) : roundings u k ≤ roundings u l := by
  have hp : (1 - u) ^ l ≤ (1 - u) ^ k := pow_le_pow_of_le_one (by linarith) (by linarith) h
  have := inv_anti₀ (pow_pos (by linarith : (0 : ℝ) < 1 - u) l) hp
  unfold roundings
  linarith

/-- `k` roundings add little more than `k u`. -/
theorem roundings_le {u : ℝ} (h0 : 0 ≤ u) (k : ℕ) (h : k * u < 1) : roundings u k ≤ k * u / (1 - k * u) := by
  rcases Nat.eq_zero_or_pos k with rfl | hk
  · simp [roundings]
  have hk' : (1 : ℝ) ≤ k := by exact_mod_cast hk
  have hu : u < 1 := by nlinarith
  have hB : 1 + (k : ℝ) * (-u) ≤ (1 + -u) ^ k := one_add_mul_le_pow (by linarith) k
  have h2 : 1 - k * u ≤ (1 - u) ^ k := by
    rw [show 1 - k * u = 1 + (k : ℝ) * (-u) by ring, show 1 - u = 1 + -u by ring]
    exact hB
  have h3 := inv_anti₀ (by linarith : 0 < 1 - k * u) h2
  unfold roundings
  rw [show k * u / (1 - k * u) = (1 - k * u)⁻¹ - 1 by
    have : (1 : ℝ) - k * u ≠ 0 := by linarith
    field_simp
    ring]
  linarith

/-- One more rounding on top of a sum. -/
theorem roundings_succ {u : ℝ} (h1 : u < 1) (k : ℕ) :
    u * (1 + roundings u k) + roundings u k ≤ roundings u (k + 1) := by
  have hk : (0 : ℝ) < (1 - u) ^ k := pow_pos (by linarith) k
  unfold roundings
  rw [pow_succ, mul_inv]
  have h2 : 1 + u ≤ (1 - u)⁻¹ := by
    rw [← one_div, le_div_iff₀ (by linarith)]
    nlinarith [sq_nonneg u]
  have h3 : 0 < ((1 - u) ^ k)⁻¹ := inv_pos.2 hk
  nlinarith

theorem Near.le {u a b : ℝ} {k : ℕ} (h0 : 0 ≤ u) (h1 : u < 1) (h : Near u k a b) : |a - b| ≤ roundings u k * |b| :=
  h.error h1 h0

/-! ### Operations -/

namespace Arith.Rounds

variable {A : Arith} {u a b c d : ℝ} {k l : ℕ}

theorem nearAdd (hA : A.Rounds u) (h0 : 0 ≤ u) (h1 : u < 1) (hb : 0 ≤ b) (hd : 0 ≤ d) (h : Near u k a b) (h' : Near u l c d)
    (m : ℕ) (hk : k ≤ m := by norm_num) (hl : l ≤ m := by norm_num) : Near u (m + 1) (A.add a c) (b + d) := by
  have := (Near.of_round h0 h1 (hA.add a c)).trans h1 ((h.mono h0 h1 hk).add h1 hb hd (h'.mono h0 h1 hl))
  rwa [add_comm] at this

theorem nearSub (hA : A.Rounds u) (h0 : 0 ≤ u) (h1 : u < 1) (a b : ℝ) : Near u 1 (A.sub a b) (a - b) :=
  Near.of_round h0 h1 (hA.sub a b)

theorem nearMul (hA : A.Rounds u) (h0 : 0 ≤ u) (h1 : u < 1) (h : Near u k a b) (h' : Near u l c d) :
    Near u (k + l + 1) (A.mul a c) (b * d) := by
  have := (Near.of_round h0 h1 (hA.mul a c)).trans h1 (h.mul h1 h')
  rwa [add_comm] at this

theorem nearSq (hA : A.Rounds u) (h0 : 0 ≤ u) (h1 : u < 1) (h : Near u k a b) : Near u (2 * k + 1) (A.sq a) (b ^ 2) := by
  have := hA.nearMul h0 h1 h h
  rwa [← two_mul, ← pow_two] at this

theorem nearDiv (hA : A.Rounds u) (h0 : 0 ≤ u) (h1 : u < 1) (h : Near u k a b) (h' : Near u l c d) (hd : d ≠ 0) :
    Near u (k + l + 1) (A.div a c) (b / d) := by
  have := (Near.of_round h0 h1 (hA.div a c (h'.ne_zero h1 hd))).trans h1 (h.div h1 h')
  rwa [add_comm] at this

theorem nearSqrt (hA : A.Rounds u) (h0 : 0 ≤ u) (h1 : u < 1) (hb : 0 ≤ b) (h : Near u (2 * k) a b) :
    Near u (k + 1) (A.sqrt a) √b := by
  have h2 := hA.sqrt a (h.nonneg h1 hb)
  rw [← abs_of_nonneg (sqrt_nonneg a)] at h2
  nth_rw 1 [abs_of_nonneg (sqrt_nonneg a)] at h2
  have := (Near.of_round h0 h1 h2).trans h1 (h.sqrt h1)
  rwa [add_comm] at this

/-- `sqrt(x**2 + y**2) + s` is right up to four roundings. -/
theorem nearRadius (hA : A.Rounds u) (h0 : 0 ≤ u) (h1 : u < 1) (x0 y0 : ℝ) {s : ℝ} (hs : 0 ≤ s) (x y : ℝ) :
    Near u 4 (A.radius x0 y0 s x y) (√((x - x0) ^ 2 + (y - y0) ^ 2) + s) := by
  have hx := hA.nearSq h0 h1 (hA.nearSub h0 h1 x x0)
  have hy := hA.nearSq h0 h1 (hA.nearSub h0 h1 y y0)
  have h2 := hA.nearAdd h0 h1 (sq_nonneg _) (sq_nonneg _) hx hy 3
  have h3 := hA.nearSqrt (k := 2) h0 h1 (by positivity) h2
  exact hA.nearAdd h0 h1 (sqrt_nonneg _) hs h3 (Near.refl s) 3

end Arith.Rounds

/-- The nearest number with `p + 1` bits is within half a unit in the last place. -/
theorem flRound_error (p : ℕ) (x : ℝ) : |flRound p x - x| ≤ 2⁻¹ ^ (p + 1) * |x| := by
  rcases eq_or_ne x 0 with rfl | hx
  · simp [flRound]
  have hb : (0 : ℝ) < 2 ^ (Int.log 2 |x| - p) := by positivity
  have h1 : (2 : ℝ) ^ Int.log 2 |x| ≤ |x| := by exact_mod_cast Int.zpow_log_le_self (b := 2) (by norm_num) (abs_pos.2 hx)
  have h2 := abs_sub_round (x / (2 : ℝ) ^ (Int.log 2 |x| - p))
  have e : flRound p x - x = -((x / 2 ^ (Int.log 2 |x| - p) - round (x / 2 ^ (Int.log 2 |x| - p))) * 2 ^ (Int.log 2 |x| - p)) := by
    unfold flRound
    rw [sub_mul, div_mul_cancel₀ _ hb.ne']
    ring
  rw [e, abs_neg, abs_mul, abs_of_pos hb]
  have e2 : (2 : ℝ) ^ (Int.log 2 |x| - p) = 2⁻¹ ^ p * 2 ^ Int.log 2 |x| := by
    rw [zpow_sub₀ (by norm_num), zpow_natCast, inv_pow]
    ring
  calc _ ≤ 1 / 2 * (2 : ℝ) ^ (Int.log 2 |x| - p) := mul_le_mul_of_nonneg_right h2 hb.le
    _ = 2⁻¹ ^ (p + 1) * 2 ^ Int.log 2 |x| := by rw [e2, pow_succ]; ring
    _ ≤ _ := mul_le_mul_of_nonneg_left h1 (by positivity)

/-- Correctly rounded arithmetic is one of the arithmetics the bounds are about. -/
theorem nearestArith_rounds (p : ℕ) : (nearestArith p).Rounds (2⁻¹ ^ (p + 1)) where
  add a b := flRound_error p _
  sub a b := flRound_error p _
  mul a b := flRound_error p _
  div a b _ := flRound_error p _
  sqrt a _ := by
    have := flRound_error p √a
    rwa [abs_of_nonneg (sqrt_nonneg a)] at this
  log a _ := flRound_error p _
  arccosh a _ := flRound_error p _

theorem exactArith_rounds {u : ℝ} (h : 0 ≤ u) : exactArith.Rounds u where
  add a b := by simpa [exactArith] using mul_nonneg h (abs_nonneg _)
  sub a b := by simpa [exactArith] using mul_nonneg h (abs_nonneg _)
  mul a b := by simpa [exactArith] using mul_nonneg h (mul_nonneg (abs_nonneg _) (abs_nonneg _))
  div a b _ := by simpa [exactArith] using mul_nonneg h (abs_nonneg (a / b))
  sqrt a _ := by simpa [exactArith] using mul_nonneg h (sqrt_nonneg _)
  log a _ := by simpa [exactArith] using mul_nonneg h (abs_nonneg _)
  arccosh a _ := by simpa [exactArith] using mul_nonneg h (abs_nonneg _)

end Caustics
