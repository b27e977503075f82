import Verif.Model.EPL
import Verif.Lemmas.Interp1d
import Mathlib.Algebra.BigOperators.Intervals
import Mathlib.Tactic.Ring
import Mathlib.Tactic.FieldSimp

/-! The EPL series in closed form. -/

open Finset

namespace Caustics

/-- Coefficient of term `n`. -/
noncomputable def eplCoef (t : ℝ) (n : ℕ) : ℝ := ∏ i ∈ range n, eplFactor t (i + 1)

/-- The first `N` terms of the series. -/
noncomputable def eplSum (z phi : ℂ) (t : ℝ) (N : ℕ) : ℂ :=
  z * ∑ n ∈ range N, (eplCoef t n : ℂ) * phi ^ n

theorem eplCoef_succ (t : ℝ) (n : ℕ) : eplCoef t (n + 1) = eplCoef t n * eplFactor t (n + 1) :=
  prod_range_succ _ _

theorem rOmegaLoop_eq (z phi : ℂ) (t : ℝ) (N : ℕ) (hN : 1 ≤ N) :
    rOmegaLoop z phi t N = eplSum z phi t N := by
  obtain ⟨n, rfl⟩ : ∃ n, N = n + 1 := ⟨N - 1, by omega⟩
  unfold rOmegaLoop
  rw [Nat.add_sub_cancel]
  have key : ((List.range n).map (· + 1)).foldl
      (fun (s : ℂ × ℂ) i => ((eplFactor t i : ℂ) * phi * s.1,
        s.2 + (eplFactor t i : ℂ) * phi * s.1)) (z, z)
      = ((eplCoef t n : ℂ) * phi ^ n * z, eplSum z phi t (n + 1)) := by
    induction n with
    | zero => simp [eplCoef, eplSum]
    | succ n ih =>
      rw [List.range_succ, List.map_append, List.foldl_append, ih (by omega)]
      simp only [List.map_cons, List.map_nil, List.foldl_cons, List.foldl_nil]
      have e : ((eplFactor t (n + 1) : ℝ) : ℂ) * phi * ((eplCoef t n : ℂ) * phi ^ n * z)
          = (eplCoef t (n + 1) : ℂ) * phi ^ (n + 1) * z := by
        rw [eplCoef_succ]; push_cast; ring
      rw [e]
      congr 1
      rw [eplSum, eplSum, sum_range_succ _ (n + 1)]
      ring
  exact congrArg Prod.snd key

/-- Sum of cumulative products. -/
def cumSum : List ℂ → ℂ
  | [] => 0
  | a :: l => a * (1 + cumSum l)

theorem scanl_tail_sum (l : List ℂ) (a : ℂ) : ((l.scanl (· * ·) a).tail).sum = a * cumSum l := by
  induction l generalizing a with
  | nil => simp [cumSum]
  | cons b l ih =>
    have h : (List.scanl (· * ·) (a * b) l).sum = a * b + a * b * cumSum l := by
      have := ih (a * b)
      cases l with
      | nil => simp [cumSum]
      | cons c l =>
        rw [List.scanl_cons] at this ⊢
        simp only [List.tail_cons] at this
        rw [List.sum_cons, this]
    rw [List.scanl_cons, List.tail_cons, h, cumSum]
    ring

theorem cumprod_sum (l : List ℂ) : (cumprod l).sum = cumSum l := by
  rw [cumprod, scanl_tail_sum, one_mul]

theorem cumSum_range (h : ℕ → ℂ) (n : ℕ) :
    cumSum ((List.range n).map h) = ∑ k ∈ range n, ∏ i ∈ range (k + 1), h i := by
  induction n generalizing h with
  | zero => simp [cumSum]
  | succ n ih =>
    rw [List.range_succ_eq_map, List.map_cons, List.map_map, cumSum, ih (h ∘ Nat.succ),
      sum_range_succ']
    simp only [Function.comp, zero_add, range_one, prod_singleton, mul_add, mul_one, mul_sum]
    rw [add_comm]
    congr 1
    refine sum_congr rfl fun k _ => ?_
    rw [prod_range_succ' _ (k + 1), mul_comm]

theorem one_chunk_eq (z phi : ℂ) (t : ℝ) (N : ℕ) (hN : 1 ≤ N) :
    z * (1 + cumSum ((((List.range (N - 1)).map (· + 1)).map
      fun i => (eplFactor t i : ℂ)).map (· * phi))) = eplSum z phi t N := by
  obtain ⟨n, rfl⟩ : ∃ n, N = n + 1 := ⟨N - 1, by omega⟩
  rw [Nat.add_sub_cancel, List.map_map, List.map_map, cumSum_range, eplSum, sum_range_succ']
  congr 1
  rw [add_comm]
  congr 1
  · refine sum_congr rfl fun k _ => ?_
    simp only [Function.comp]
    rw [prod_mul_distrib, prod_const, card_range, eplCoef]
    push_cast
    rfl
  · simp [eplCoef]

/-- With at most one chunk, or one term per chunk, the series is the plain sum. -/
theorem rOmega_eq (z : ℂ) (t q : ℝ) (N : ℕ) (hN : 1 ≤ N) (cs : Option ℕ)
    (hcs : cs = none ∨ cs = some 1 ∨ ∃ c, cs = some c ∧ N < 2 * c ∧ c ≤ N) :
    rOmega z t q N cs =
      .ok (eplSum z (z / (starRingEnd ℂ) z * (-((1 - q) / (1 + q)) : ℝ)) t N) := by
  unfold rOmega
  simp only
  by_cases h1 : cs.getD N = 1
  · rw [if_pos h1, rOmegaLoop_eq _ _ _ _ hN]
  · rw [if_neg h1]
    have hc : N / cs.getD N = 1 ∧ cs.getD N ≠ 0 := by
      rcases hcs with rfl | rfl | ⟨c, rfl, h2, h3⟩
      · simp only [Option.getD_none] at h1 ⊢
        exact ⟨Nat.div_self (by omega), by omega⟩
      · simp at h1
      · simp only [Option.getD_some] at h1 ⊢
        refine ⟨?_, by omega⟩
        rw [Nat.div_eq_iff (by omega)]
        omega
    rw [if_neg hc.2, hc.1]
    have hr : List.range 1 = [0] := rfl
    rw [hr]
    simp only [List.foldlM_cons, List.foldlM_nil, rOmegaChunk]
    have htake : ∀ l : List ℂ, l.length = N - 1 →
        (l.take (max ((0 + 1) * cs.getD N) N)).drop (0 * cs.getD N) = l := by
      intro l hl
      rw [zero_mul, List.drop_zero, List.take_of_length_le]
      rw [hl]
      have := le_max_right ((0 + 1) * cs.getD N) N
      omega
    rw [htake _ (by simp), cumprod_sum]
    change Except.ok _ = _
    rw [one_chunk_eq _ _ _ _ hN]

end Caustics
