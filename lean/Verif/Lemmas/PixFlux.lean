import Verif.Props.PixLight
import Mathlib.MeasureTheory.Integral.IntervalIntegral.FundThmCalculus
import Mathlib.Analysis.SpecialFunctions.Integrals.Basic
import Mathlib.MeasureTheory.Integral.Prod
import Mathlib.MeasureTheory.Measure.Lebesgue.EqHaar
import Mathlib.MeasureTheory.Measure.Lebesgue.VolumeOfBalls

/-! Integrals of linearly interpolated rows, with the half pixels at both ends. -/

open MeasureTheory Set

namespace Caustics

theorem lin_le_zero {n : ℕ} (hn : 2 ≤ n) {p : ℝ} (hp : p ≤ 0) (f : ℤ → ℝ) :
    lin n p f = f 0 * (1 - p) + f 1 * p := by
  have hfl : ⌊p⌋ ≤ 0 := by
    have := Int.floor_mono hp
    simpa using this
  have : cell n p = 0 := by unfold cell clamp; omega
  unfold lin; rw [this]; norm_num

theorem lin_ge_last {n : ℕ} (hn : 2 ≤ n) {p : ℝ} (hp : (n : ℝ) - 1 ≤ p) (f : ℤ → ℝ) :
    lin n p f = f ((n : ℤ) - 2) * ((n : ℝ) - 1 - p) + f ((n : ℤ) - 1) * (p - ((n : ℝ) - 2)) := by
  have hfl : (n : ℤ) - 1 ≤ ⌊p⌋ := by
    rw [Int.le_floor]; push_cast; exact hp
  have : cell n p = (n : ℤ) - 2 := by unfold cell clamp; omega
  unfold lin; rw [this]; push_cast; ring_nf

theorem line_integral (u v c d a b : ℝ) :
    ∫ p in a..b, (u * (c - p) + v * (p - d)) = u * (c * (b - a) - (b ^ 2 - a ^ 2) / 2) + v * ((b ^ 2 - a ^ 2) / 2 - d * (b - a)) := by
  have hd : ∀ p ∈ uIcc a b, HasDerivAt (fun p => u * (c * p - p ^ 2 / 2) + v * (p ^ 2 / 2 - d * p)) (u * (c - p) + v * (p - d)) p := by
    intro p _
    have h2 : HasDerivAt (fun p : ℝ => p ^ 2 / 2) p p := by
      refine ((hasDerivAt_pow 2 p).div_const 2).congr_deriv ?_
      norm_num
    have h1 : ∀ k : ℝ, HasDerivAt (fun p : ℝ => k * p) k p := fun k => by
      simpa using (hasDerivAt_id p).const_mul k
    exact (((h1 c).fun_sub h2).const_mul u).fun_add ((h2.fun_sub (h1 d)).const_mul v)
  rw [intervalIntegral.integral_eq_sub_of_hasDerivAt hd (Continuous.intervalIntegrable (by fun_prop) _ _)]
  ring

/-- One row, from the outer edge of its first pixel to the outer edge of its last. -/
theorem lin_integral {n : ℕ} (hn : 2 ≤ n) (f : ℤ → ℝ) :
    IntervalIntegrable (fun p => lin n p f) volume (-(1 / 2)) ((n : ℝ) - 1 / 2) ∧
    ∫ p in (-(1 / 2))..((n : ℝ) - 1 / 2), lin n p f
      = (∑ j ∈ Finset.range n, f j) + (f 0 - f 1 + (f ((n : ℤ) - 1) - f ((n : ℤ) - 2))) / 8 := by
  -- left half pixel
  have hleft : EqOn (fun p => f 0 * (1 - p) + f 1 * (p - 0)) (fun p => lin n p f) (uIcc (-(1 / 2)) 0) := by
    intro p hp
    rw [uIcc_of_le (by norm_num)] at hp
    simp only [lin_le_zero hn hp.2 f, sub_zero]
  have hL : IntervalIntegrable (fun p => lin n p f) volume (-(1 / 2)) 0 := by
    refine (Continuous.intervalIntegrable (by fun_prop : Continuous fun p : ℝ => f 0 * (1 - p) + f 1 * (p - 0)) _ _).congr ?_
    exact (hleft.mono uIoc_subset_uIcc)
  have hLi : ∫ p in (-(1 / 2))..0, lin n p f = 5 / 8 * f 0 - f 1 / 8 := by
    rw [← intervalIntegral.integral_congr hleft, line_integral]; ring
  -- cells
  have hc : ∀ k < n - 1, EqOn (fun p => f k * ((k : ℝ) + 1 - p) + f (k + 1) * (p - k)) (fun p => lin n p f)
      (uIcc (k : ℝ) ((k + 1 : ℕ) : ℝ)) := by
    intro k hk p hp
    rw [uIcc_of_le (by push_cast; linarith)] at hp
    have h2 := hp.2
    push_cast at h2
    have := lin_cell (n := n) (p := p) (j := (k : ℤ)) (by omega) (by omega) (by exact_mod_cast hp.1) (by exact_mod_cast h2) f
    simp only [this]
    push_cast
    ring
  have hC : ∀ k < n - 1, IntervalIntegrable (fun p => lin n p f) volume (k : ℝ) ((k + 1 : ℕ) : ℝ) := by
    intro k hk
    refine (Continuous.intervalIntegrable (by fun_prop : Continuous fun p : ℝ => f k * ((k : ℝ) + 1 - p) + f (k + 1) * (p - k)) _ _).congr ?_
    exact ((hc k hk).mono uIoc_subset_uIcc)
  have hCi : ∀ k < n - 1, ∫ p in (k : ℝ)..((k + 1 : ℕ) : ℝ), lin n p f = (f k + f (k + 1)) / 2 := by
    intro k hk
    rw [← intervalIntegral.integral_congr (hc k hk), line_integral]; push_cast; ring
  -- right half pixel
  have hright : EqOn (fun p => f ((n : ℤ) - 2) * ((n : ℝ) - 1 - p) + f ((n : ℤ) - 1) * (p - ((n : ℝ) - 2)))
      (fun p => lin n p f) (uIcc ((n : ℝ) - 1) ((n : ℝ) - 1 / 2)) := by
    intro p hp
    rw [uIcc_of_le (by linarith)] at hp
    simp only [lin_ge_last hn hp.1 f]
  have hR : IntervalIntegrable (fun p => lin n p f) volume ((n : ℝ) - 1) ((n : ℝ) - 1 / 2) := by
    refine (Continuous.intervalIntegrable (by fun_prop : Continuous fun p : ℝ =>
      f ((n : ℤ) - 2) * ((n : ℝ) - 1 - p) + f ((n : ℤ) - 1) * (p - ((n : ℝ) - 2))) _ _).congr ?_
    exact hright.mono uIoc_subset_uIcc
  have hRi : ∫ p in ((n : ℝ) - 1)..((n : ℝ) - 1 / 2), lin n p f = 5 / 8 * f ((n : ℤ) - 1) - f ((n : ℤ) - 2) / 8 := by
    rw [← intervalIntegral.integral_congr hright, line_integral]; ring
  have hM := IntervalIntegrable.trans_iterate (a := fun k : ℕ => (k : ℝ)) (n := n - 1) hC
  have hMi := intervalIntegral.sum_integral_adjacent_intervals (a := fun k : ℕ => (k : ℝ)) (n := n - 1) hC
  rw [Finset.sum_congr rfl fun k hk => hCi k (Finset.mem_range.1 hk)] at hMi
  have hcast : ((n - 1 : ℕ) : ℝ) = (n : ℝ) - 1 := by
    rw [Nat.cast_sub (by omega)]; norm_num
  simp only [Nat.cast_zero, hcast] at hM hMi
  refine ⟨(hL.trans hM).trans hR, ?_⟩
  rw [← intervalIntegral.integral_add_adjacent_intervals (hL.trans hM) hR,
    ← intervalIntegral.integral_add_adjacent_intervals hL hM, hLi, hRi, ← hMi]
  have hs : ∀ m : ℕ, ∑ k ∈ Finset.range m, (f k + f (k + 1)) / 2
      = (∑ k ∈ Finset.range (m + 1), f k) - (f 0 + f m) / 2 := by
    intro m
    induction m with
    | zero => simp
    | succ m ih =>
      rw [Finset.sum_range_succ, ih, Finset.sum_range_succ _ (m + 1)]
      push_cast
      ring
  rw [hs, show n - 1 + 1 = n by omega, show (((n - 1 : ℕ)) : ℤ) = (n : ℤ) - 1 by omega]
  ring

/-- The interpolated row, zero beyond its pixels. -/
noncomputable def rowG (n : ℕ) (f : ℤ → ℝ) (p : ℝ) : ℝ := if p < -(1 / 2) ∨ (n : ℝ) - 1 / 2 < p then 0 else lin n p f

theorem rowG_eq (n : ℕ) (f : ℤ → ℝ) : rowG n f = (Icc (-(1 / 2)) ((n : ℝ) - 1 / 2)).indicator fun p => lin n p f := by
  funext p
  unfold rowG indicator
  by_cases h : p < -(1 / 2) ∨ (n : ℝ) - 1 / 2 < p
  · rw [if_pos h, if_neg]
    rintro ⟨h1, h2⟩
    rcases h with h | h <;> linarith
  · push Not at h
    rw [if_neg (by push Not; exact h), if_pos ⟨h.1, h.2⟩]

theorem rowG_integral {n : ℕ} (hn : 2 ≤ n) (f : ℤ → ℝ) :
    Integrable (rowG n f) ∧ ∫ p, rowG n f p
      = (∑ j ∈ Finset.range n, f j) + (f 0 - f 1 + (f ((n : ℤ) - 1) - f ((n : ℤ) - 2))) / 8 := by
  obtain ⟨h1, h2⟩ := lin_integral hn f
  have hle : -(1 / 2) ≤ (n : ℝ) - 1 / 2 := by
    have : (2 : ℝ) ≤ n := by exact_mod_cast hn
    linarith
  rw [rowG_eq]
  constructor
  · rw [integrable_indicator_iff measurableSet_Icc, ← intervalIntegrable_iff_integrableOn_Icc_of_le hle]
    exact h1
  · rw [integral_indicator measurableSet_Icc, integral_Icc_eq_integral_Ioc, ← intervalIntegral.integral_of_le hle]
    exact h2

/-- The row in coordinates of the sky. -/
theorem row_integral {n : ℕ} (hn : 2 ≤ n) (f : ℤ → ℝ) {ps : ℝ} (hps : 0 < ps) (x0 c : ℝ) :
    Integrable (fun x => rowG n f ((x - x0) / ps + c)) ∧ ∫ x, rowG n f ((x - x0) / ps + c)
      = ps * ((∑ j ∈ Finset.range n, f j) + (f 0 - f 1 + (f ((n : ℤ) - 1) - f ((n : ℤ) - 2))) / 8) := by
  obtain ⟨h1, h2⟩ := rowG_integral hn f
  constructor
  · have := ((h1.comp_add_right c).comp_div hps.ne').comp_sub_right x0
    exact this
  · rw [integral_sub_right_eq_self (fun x => rowG n f (x / ps + c)) x0,
      Measure.integral_comp_div (fun x => rowG n f (x + c)) ps, integral_add_right_eq_self (rowG n f) c, h2, abs_of_pos hps,
      smul_eq_mul]

/-- A row as a sum over its pixels. -/
theorem rowG_sum {n : ℕ} (hn : 2 ≤ n) (f : ℤ → ℝ) (p : ℝ) :
    rowG n f p = ∑ j : Fin n, f ((j : ℕ) : ℤ) * rowG n (fun i => if i = ((j : ℕ) : ℤ) then 1 else 0) p := by
  unfold rowG
  split_ifs
  · simp
  · obtain ⟨h0, h1⟩ := cell_bounds2 hn p
    unfold lin
    have key : ∀ k : ℤ, 0 ≤ k → k < n → ∑ j : Fin n, f ((j : ℕ) : ℤ) * (if k = ((j : ℕ) : ℤ) then (1 : ℝ) else 0) = f k := by
      intro k hk0 hk1
      rw [Finset.sum_eq_single (⟨k.toNat, by omega⟩ : Fin n)]
      · simp only [Int.toNat_of_nonneg hk0, if_true, mul_one]
      · intro j _ hj
        rw [if_neg, mul_zero]
        intro h
        apply hj
        apply Fin.ext
        simp only
        omega
      · intro h; exact absurd (Finset.mem_univ _) h
    simp only [mul_add, Finset.sum_add_distrib, ← mul_assoc, ← Finset.sum_mul]
    rw [key _ h0 (by omega), key _ (by omega) h1]

end Caustics
