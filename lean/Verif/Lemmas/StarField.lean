import Mathlib.Analysis.Complex.Basic
import Mathlib.Algebra.Polynomial.BigOperators
import Mathlib.Algebra.Polynomial.Roots
import Mathlib.Data.Set.Card
import Mathlib.Tactic.FieldSimp
import Mathlib.Tactic.LinearCombination

/-!
The lens equation of a field of point masses, written with complex numbers, and the polynomial that every image is a
root of.
-/

namespace Caustics

open Polynomial ComplexConjugate

/-- `z` is an image of `ζ` in the field of masses `m i` at the points `i ∈ S`. -/
def StarImage (S : Finset ℂ) (m : ℂ → ℂ) (a g ζ z : ℂ) : Prop :=
  z ∉ S ∧ a * z - g * conj z - ∑ i ∈ S, m i / (conj z - conj i) = ζ

section
variable (S : Finset ℂ) (m : ℂ → ℂ) (a g ζ : ℂ)

noncomputable def starQ (S : Finset ℂ) : ℂ[X] := ∏ i ∈ S, (X - C i)

noncomputable def starA : ℂ[X] :=
  (C (conj ζ) + C (conj g) * X) * starQ S + ∑ i ∈ S, C (conj (m i)) * starQ (S.erase i)

noncomputable def starR (i : ℂ) : ℂ[X] := starA S m g ζ - C (conj a * conj i) * starQ S

noncomputable def starP : ℂ[X] :=
  (C (conj a) * (C a * X - C ζ) * starQ S - C g * starA S m g ζ) * ∏ i ∈ S, starR S m a g ζ i -
    ∑ i ∈ S, C (m i * conj a ^ 2) * starQ S ^ 2 * ∏ j ∈ S.erase i, starR S m a g ζ j

noncomputable def starP0 : ℂ[X] :=
  C (conj a) * (C a * X - C ζ) * (∏ i ∈ S, starR S m a 0 ζ i) -
    ∑ i ∈ S, C (m i * conj a ^ 2) * starQ S * ∏ j ∈ S.erase i, starR S m a 0 ζ j

end

variable {S : Finset ℂ} {m : ℂ → ℂ} {a g ζ z : ℂ}

theorem starQ_ne (h : z ∉ S) : (starQ S).eval z ≠ 0 := by
  rw [starQ, eval_prod]
  refine Finset.prod_ne_zero_iff.2 fun i hi => ?_
  rw [eval_sub, eval_X, eval_C, sub_ne_zero]
  rintro rfl
  exact h hi

theorem starQ_zero {k : ℂ} (h : k ∈ S) : (starQ S).eval k = 0 := by
  rw [starQ, eval_prod]
  exact Finset.prod_eq_zero h (by simp)

theorem starQ_erase (z : ℂ) {i : ℂ} (hi : i ∈ S) :
    (z - i) * (starQ (S.erase i)).eval z = (starQ S).eval z := by
  rw [starQ, starQ, ← Finset.mul_prod_erase S _ hi, eval_mul]
  simp

/-- The image's conjugate is a rational function of the image. -/
theorem starA_image (h : StarImage S m a g ζ z) :
    (starA S m g ζ).eval z = (starQ S).eval z * (conj a * conj z) := by
  obtain ⟨hz, he⟩ := h
  have hc := congrArg conj he
  simp only [map_sub, map_mul, map_sum, map_div₀, Complex.conj_conj] at hc
  have hs : ∑ i ∈ S, conj (m i) * (starQ (S.erase i)).eval z =
      (starQ S).eval z * ∑ i ∈ S, conj (m i) / (z - i) := by
    rw [Finset.mul_sum]
    refine Finset.sum_congr rfl fun i hi => ?_
    have hne : z - i ≠ 0 := by
      rw [sub_ne_zero]
      rintro rfl
      exact hz hi
    rw [← starQ_erase z hi]
    field_simp
  rw [starA, eval_add, eval_mul, eval_add, eval_C, eval_mul, eval_C, eval_X, eval_finsetSum]
  simp only [eval_mul, eval_C]
  rw [hs]
  linear_combination -(starQ S).eval z * hc

theorem starR_image (h : StarImage S m a g ζ z) (i : ℂ) :
    (starR S m a g ζ i).eval z = (starQ S).eval z * conj a * (conj z - conj i) := by
  rw [starR, eval_sub, starA_image h, eval_mul, eval_C]
  ring

theorem starR_ne (ha : a ≠ 0) (h : StarImage S m a g ζ z) {i : ℂ} (hi : i ∈ S) :
    (starR S m a g ζ i).eval z ≠ 0 := by
  rw [starR_image h]
  refine mul_ne_zero (mul_ne_zero (starQ_ne h.1) (by simpa using ha)) ?_
  rw [sub_ne_zero]
  intro he
  rw [(starRingEnd ℂ).injective he] at h
  exact h.1 hi

theorem star_sum (ha : a ≠ 0) (h : StarImage S m a g ζ z) :
    ∑ i ∈ S, m i * conj a ^ 2 * (starQ S).eval z * ∏ j ∈ S.erase i, (starR S m a g ζ j).eval z =
      conj a * (∏ i ∈ S, (starR S m a g ζ i).eval z) * ∑ i ∈ S, m i / (conj z - conj i) := by
  rw [Finset.mul_sum]
  refine Finset.sum_congr rfl fun i hi => ?_
  have hne := starR_ne ha h hi
  rw [← Finset.mul_prod_erase S _ hi]
  rw [starR_image h] at hne ⊢
  have h3 : conj z - conj i ≠ 0 := right_ne_zero_of_mul hne
  field_simp

theorem starP_image (ha : a ≠ 0) (h : StarImage S m a g ζ z) : (starP S m a g ζ).IsRoot z := by
  rw [IsRoot, starP]
  simp only [eval_sub, eval_mul, eval_C, eval_X, eval_prod, eval_finsetSum, eval_pow]
  have hs : ∑ i ∈ S, m i * conj a ^ 2 * (starQ S).eval z ^ 2 * ∏ j ∈ S.erase i, (starR S m a g ζ j).eval z =
      (starQ S).eval z *
        (conj a * (∏ i ∈ S, (starR S m a g ζ i).eval z) * ∑ i ∈ S, m i / (conj z - conj i)) := by
    rw [← star_sum ha h, Finset.mul_sum]
    exact Finset.sum_congr rfl fun i _ => by ring
  rw [hs, starA_image h]
  linear_combination (starQ S).eval z * conj a * (∏ i ∈ S, (starR S m a g ζ i).eval z) * h.2

theorem starP0_image (ha : a ≠ 0) (h : StarImage S m a 0 ζ z) : (starP0 S m a ζ).IsRoot z := by
  rw [IsRoot, starP0]
  simp only [eval_sub, eval_mul, eval_C, eval_X, eval_prod, eval_finsetSum]
  rw [star_sum ha h]
  linear_combination conj a * (∏ i ∈ S, (starR S m a 0 ζ i).eval z) * h.2

theorem starA_star {k : ℂ} (hk : k ∈ S) :
    (starA S m g ζ).eval k = conj (m k) * (starQ (S.erase k)).eval k := by
  rw [starA, eval_add, eval_mul, starQ_zero hk, mul_zero, zero_add, eval_finsetSum]
  rw [Finset.sum_eq_single_of_mem k hk]
  · rw [eval_mul, eval_C]
  · intro i _ hik
    rw [eval_mul, starQ_zero (Finset.mem_erase.2 ⟨hik.symm, hk⟩), mul_zero]

theorem starA_star_ne {k : ℂ} (hk : k ∈ S) (hm : m k ≠ 0) : (starA S m g ζ).eval k ≠ 0 := by
  rw [starA_star hk]
  exact mul_ne_zero (by simpa using hm) (starQ_ne (by simp))

theorem starR_star {k : ℂ} (hk : k ∈ S) (i : ℂ) :
    (starR S m a g ζ i).eval k = (starA S m g ζ).eval k := by
  rw [starR, eval_sub, eval_mul, starQ_zero hk, mul_zero, sub_zero]

theorem starP_ne {k : ℂ} (hk : k ∈ S) (hm : m k ≠ 0) (hg : g ≠ 0) : starP S m a g ζ ≠ 0 := by
  intro h
  have := congrArg (eval k) h
  rw [starP] at this
  simp only [eval_sub, eval_mul, eval_C, eval_X, eval_prod, eval_finsetSum, eval_pow, starQ_zero hk,
    starR_star hk, eval_zero] at this
  simp [starA_star_ne hk hm, hg, Finset.prod_const] at this

theorem starP0_ne {k : ℂ} (hk : k ∈ S) (hm : m k ≠ 0) (ha : a ≠ 0) (hz : a * k ≠ ζ) :
    starP0 S m a ζ ≠ 0 := by
  intro h
  have := congrArg (eval k) h
  rw [starP0] at this
  simp only [eval_sub, eval_mul, eval_C, eval_X, eval_prod, eval_finsetSum, starQ_zero hk,
    starR_star hk, eval_zero] at this
  simp [starA_star_ne hk hm, ha, Finset.prod_const, sub_eq_zero, hz] at this

/-! ### Degrees -/

theorem starQ_deg (S : Finset ℂ) : (starQ S).natDegree ≤ S.card := by
  rw [starQ]
  refine (natDegree_prod_le _ _).trans ?_
  simp

theorem starQ_erase_deg {i : ℂ} (hi : i ∈ S) : (starQ (S.erase i)).natDegree ≤ S.card - 1 := by
  have := starQ_deg (S.erase i)
  rwa [Finset.card_erase_of_mem hi] at this

theorem starA_deg {d : ℕ} (hd : (C (conj ζ) + C (conj g) * X : ℂ[X]).natDegree ≤ d) :
    (starA S m g ζ).natDegree ≤ S.card + d := by
  refine natDegree_add_le_of_degree_le ?_ ?_
  · refine natDegree_mul_le.trans ?_
    have := starQ_deg S
    omega
  · refine natDegree_sum_le_of_forall_le _ _ fun i hi => ?_
    refine (natDegree_C_mul_le _ _).trans ?_
    have := starQ_erase_deg hi
    omega

theorem starR_deg {d : ℕ} (hd : (C (conj ζ) + C (conj g) * X : ℂ[X]).natDegree ≤ d) (i : ℂ) :
    (starR S m a g ζ i).natDegree ≤ S.card + d := by
  refine (natDegree_sub_le_of_le (starA_deg hd) ((natDegree_C_mul_le _ _).trans (starQ_deg S))).trans ?_
  simp

theorem star_prod_deg {d : ℕ} (hd : (C (conj ζ) + C (conj g) * X : ℂ[X]).natDegree ≤ d) (T : Finset ℂ) :
    (∏ i ∈ T, starR S m a g ζ i).natDegree ≤ T.card * (S.card + d) := by
  refine (natDegree_prod_le _ _).trans ?_
  refine (Finset.sum_le_card_nsmul _ _ _ fun i _ => starR_deg hd i).trans ?_
  rw [smul_eq_mul]

theorem lin_deg (u v : ℂ) : (C u + C v * X : ℂ[X]).natDegree ≤ 1 := by
  compute_degree

theorem starP_deg : (starP S m a g ζ).natDegree ≤ (S.card + 1) ^ 2 := by
  have hd := lin_deg (conj ζ) (conj g)
  have hQ := starQ_deg S
  refine (natDegree_sub_le_of_le (m := (S.card + 1) ^ 2) (n := (S.card + 1) ^ 2) ?_ ?_).trans (by simp)
  · refine natDegree_mul_le.trans ?_
    have h1 : (C (conj a) * (C a * X - C ζ) * starQ S - C g * starA S m g ζ).natDegree ≤ S.card + 1 := by
      refine (natDegree_sub_le_of_le (m := S.card + 1) (n := S.card + 1) ?_ ?_).trans (by simp)
      · refine natDegree_mul_le.trans ?_
        have : (C (conj a) * (C a * X - C ζ) : ℂ[X]).natDegree ≤ 1 := by compute_degree
        omega
      · exact (natDegree_C_mul_le _ _).trans (starA_deg hd)
    have h2 := star_prod_deg (S := S) (m := m) (a := a) hd S
    calc _ ≤ (S.card + 1) + S.card * (S.card + 1) := Nat.add_le_add h1 h2
      _ = _ := by ring
  · refine natDegree_sum_le_of_forall_le _ _ fun i hi => ?_
    refine natDegree_mul_le.trans ?_
    have h1 : (C (m i * conj a ^ 2) * starQ S ^ 2).natDegree ≤ 2 * S.card := by
      refine (natDegree_C_mul_le _ _).trans (natDegree_pow_le.trans ?_)
      omega
    have h2 := star_prod_deg (S := S) (m := m) (a := a) hd (S.erase i)
    rw [Finset.card_erase_of_mem hi] at h2
    have hc : 1 ≤ S.card := Finset.card_pos.2 ⟨i, hi⟩
    obtain ⟨n, hn⟩ := Nat.exists_eq_add_of_le hc
    rw [hn] at h1 h2 ⊢
    simp only [Nat.add_sub_cancel_left] at h2
    nlinarith

theorem starP0_deg : (starP0 S m a ζ).natDegree ≤ S.card ^ 2 + 1 := by
  have hd : (C (conj ζ) + C (conj (0 : ℂ)) * X : ℂ[X]).natDegree ≤ 0 := by simp
  have hQ := starQ_deg S
  refine (natDegree_sub_le_of_le (m := S.card ^ 2 + 1) (n := S.card ^ 2 + 1) ?_ ?_).trans (by simp)
  · refine natDegree_mul_le.trans ?_
    have h1 : (C (conj a) * (C a * X - C ζ) : ℂ[X]).natDegree ≤ 1 := by compute_degree
    have h2 := star_prod_deg (S := S) (m := m) (a := a) hd S
    rw [add_zero, ← sq] at h2
    omega
  · refine natDegree_sum_le_of_forall_le _ _ fun i hi => ?_
    refine natDegree_mul_le.trans ?_
    have h1 : (C (m i * conj a ^ 2) * starQ S).natDegree ≤ S.card :=
      (natDegree_C_mul_le _ _).trans hQ
    have h2 := star_prod_deg (S := S) (m := m) (a := a) hd (S.erase i)
    rw [Finset.card_erase_of_mem hi] at h2
    have hc : 1 ≤ S.card := Finset.card_pos.2 ⟨i, hi⟩
    obtain ⟨n, hn⟩ := Nat.exists_eq_add_of_le hc
    rw [hn] at h1 h2 ⊢
    simp only [Nat.add_sub_cancel_left] at h2
    nlinarith

/-! ### Counting -/

theorem roots_bound {P : ℂ[X]} (hP : P ≠ 0) {T : Set ℂ} (hT : ∀ z ∈ T, P.IsRoot z) {d : ℕ} (hd : P.natDegree ≤ d) :
    T.Finite ∧ T.ncard ≤ d := by
  have hsub : T ⊆ (P.roots.toFinset : Set ℂ) := fun z hz => by simpa [hP] using hT z hz
  refine ⟨(Finset.finite_toSet _).subset hsub, ?_⟩
  refine (Set.ncard_le_ncard hsub (Finset.finite_toSet _)).trans ?_
  rw [Set.ncard_coe_finset]
  exact (Multiset.toFinset_card_le _).trans ((card_roots' P).trans hd)

theorem star_sheared (ha : a ≠ 0) (hg : g ≠ 0) (hS : S.Nonempty) (hm : ∀ i ∈ S, m i ≠ 0) :
    {z | StarImage S m a g ζ z}.Finite ∧ {z | StarImage S m a g ζ z}.ncard ≤ (S.card + 1) ^ 2 := by
  obtain ⟨k, hk⟩ := hS
  exact roots_bound (starP_ne hk (hm k hk) hg) (fun z hz => starP_image ha hz) starP_deg

theorem star_unsheared (ha : a ≠ 0) (hm : ∀ i ∈ S, m i ≠ 0) (h1 : ∀ k, S = {k} → a * k ≠ ζ) :
    {z | StarImage S m a 0 ζ z}.Finite ∧ {z | StarImage S m a 0 ζ z}.ncard ≤ S.card ^ 2 + 1 := by
  refine roots_bound ?_ (fun z hz => starP0_image ha hz) starP0_deg
  rcases S.eq_empty_or_nonempty with rfl | ⟨k, hk⟩
  · intro h
    have := congrArg (fun p => p.coeff 1) h
    simp [starP0, coeff_C, ha] at this
  · by_cases hak : a * k = ζ
    · have : ∃ l ∈ S, l ≠ k := by
        by_contra hno
        push Not at hno
        exact h1 k (Finset.eq_singleton_iff_unique_mem.2 ⟨hk, hno⟩) hak
      obtain ⟨l, hl, hlk⟩ := this
      refine starP0_ne hl (hm l hl) ha fun h => hlk ?_
      exact mul_left_cancel₀ ha (h.trans hak.symm)
    · exact starP0_ne hk (hm k hk) ha hak

/-- A sheet of the critical density: the equation is a polynomial equation for the conjugate. -/
theorem star_critical (hS : S.Nonempty) (hm : ∀ i ∈ S, m i ≠ 0) :
    {z | StarImage S m 0 g ζ z}.Finite ∧ {z | StarImage S m 0 g ζ z}.ncard ≤ S.card + 1 := by
  obtain ⟨k, hk⟩ := hS
  refine roots_bound (P := starA S m g ζ) ?_ (fun z hz => ?_) (starA_deg (lin_deg _ _))
  · intro h
    exact starA_star_ne hk (hm k hk) (by rw [h, eval_zero])
  · rw [IsRoot, starA_image hz]
    simp

end Caustics
