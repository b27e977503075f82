import Verif.Lemmas.StarParity
import Mathlib.LinearAlgebra.Lagrange

/-!
A field of point masses that makes as many images as the degree of its equation: the inverse Jacobian determinants add
up to a constant.
-/

namespace Caustics

open Polynomial ComplexConjugate Filter Topology

/-- As many distinct zeros as the degree: none is double, and a sum over them is read off the coefficients. -/
theorem sum_div_derivative {P Q : ℂ[X]} {T : Finset ℂ} {n : ℕ} (hT : T.card = n + 1) (hP : P ≠ 0)
    (hd : P.natDegree ≤ n + 1) (hQ : Q.natDegree ≤ n) (hz : ∀ z ∈ T, P.IsRoot z) :
    P.coeff (n + 1) ≠ 0 ∧ (∀ z ∈ T, P.derivative.eval z ≠ 0) ∧
      ∑ z ∈ T, Q.eval z / P.derivative.eval z = Q.coeff n / P.coeff (n + 1) := by
  set k := P.coeff (n + 1) with hk
  have hnod : (Lagrange.nodal T id).natDegree = n + 1 := by rw [Lagrange.natDegree_nodal, hT]
  have hinj : Set.InjOn (id : ℂ → ℂ) T := Set.injOn_id _
  have hfac : P = C k * Lagrange.nodal T id := by
    refine eq_of_degree_sub_lt_of_eval_index_eq T hinj ?_ ?_
    · rw [hT]
      refine (degree_lt_iff_coeff_zero _ _).2 fun j hj => ?_
      rw [coeff_sub, coeff_C_mul]
      rcases hj.lt_or_eq with h | h
      · rw [coeff_eq_zero_of_natDegree_lt (lt_of_le_of_lt hd h), coeff_eq_zero_of_natDegree_lt (by rw [hnod]; exact h)]
        ring
      · rw [← h]
        have h1 := (Lagrange.nodal_monic (s := T) (v := (id : ℂ → ℂ))).coeff_natDegree
        rw [hnod] at h1
        rw [h1, mul_one, hk, sub_self]
    · intro z hz'
      rw [eval_mul, Lagrange.eval_nodal_at_node hz', mul_zero]
      exact hz z hz'
  have hk0 : k ≠ 0 := by
    intro h
    rw [h, map_zero, zero_mul] at hfac
    exact hP hfac
  have hder : ∀ z ∈ T, P.derivative.eval z = k * ∏ w ∈ T.erase z, (z - w) := by
    intro z hz'
    have := Lagrange.eval_nodal_derivative_eval_node_eq (v := (id : ℂ → ℂ)) hz'
    rw [hfac, derivative_C_mul, eval_mul, eval_C]
    simp only [id] at this
    rw [this, Lagrange.eval_nodal]
    rfl
  have hne : ∀ z ∈ T, P.derivative.eval z ≠ 0 := by
    intro z hz'
    rw [hder z hz']
    refine mul_ne_zero hk0 (Finset.prod_ne_zero_iff.2 fun w hw => sub_ne_zero.2 fun h => ?_)
    exact (Finset.mem_erase.1 hw).1 h.symm
  refine ⟨hk0, hne, ?_⟩
  have hl := Lagrange.coeff_eq_sum hinj (P := Q) (by
    rw [hT]
    exact lt_of_le_of_lt degree_le_natDegree (by exact_mod_cast Nat.lt_succ_of_le hQ))
  rw [hT, Nat.add_sub_cancel] at hl
  rw [hl, Finset.sum_div]
  refine Finset.sum_congr rfl fun z hz' => ?_
  rw [hder z hz', div_div, mul_comm k]
  rfl

theorem star_cancel {a q j : ℂ} (h : q ≠ 0) : (a * conj a * j)⁻¹ = q / (conj a * a * q * j) := by
  rw [show conj a * a * q * j = q * (a * conj a * j) by ring, ← div_div, div_self h, one_div]

section
variable {S : Finset ℂ} {m : ℂ → ℂ} {a g ζ z : ℂ}

/-- The derivative at an image of a polynomial that is a multiple of the equation. -/
theorem star_derivative {P Q : ℂ[X]} {c : ℂ} (ha : a ≠ 0)
    (hP : ∀ u, u ∉ S → conj (starF S m a g ζ u) ∉ S → P.eval u = c * Q.eval u * starH S m a g ζ u)
    (h : StarImage S m a g ζ z) :
    P.derivative.eval z = c * Q.eval z * (1 - ‖starF' S m a g z‖ ^ 2 : ℝ) := by
  obtain ⟨h1, h2⟩ := (starImage_iff ha).1 h
  have h' : conj (starF S m a g ζ z) ∉ S := by rwa [h2]
  have hc : ∀ᶠ u in 𝓝 z, conj (starF S m a g ζ u) ∉ S :=
    (Complex.continuous_conj.continuousAt.comp (starF_analytic h1).continuousAt).eventually (eventually_not_mem h')
  have hH := starH_deriv (m := m) (a := a) (g := g) (ζ := ζ) h1 h'
  have h0 : starH S m a g ζ z = 0 := by
    rw [starH, starG_conj, h2, h2, sub_self]
  have hd := (((Q.hasDerivAt z).const_mul c).mul hH).congr_of_eventuallyEq (f₁ := fun u => P.eval u) (by
    filter_upwards [eventually_not_mem h1, hc] with u hu hu' using hP u hu hu')
  have := (P.hasDerivAt z).unique hd
  rw [this, h0, mul_zero, zero_add, h2]
  congr 1
  rw [mul_comm (conj _), Complex.mul_conj, Complex.normSq_eq_norm_sq]
  push_cast
  ring

theorem star_sheared_sum (ha : a ≠ 0) (hg : g ≠ 0) (hS : S.Nonempty) (hm : ∀ i ∈ S, m i ≠ 0) {T : Finset ℂ}
    (hT : T.card = (S.card + 1) ^ 2) (hi : ∀ z ∈ T, StarImage S m a g ζ z) :
    a * conj a - g * conj g ≠ 0 ∧ (∀ z ∈ T, a * conj a * (1 - ‖starF' S m a g z‖ ^ 2 : ℝ) ≠ 0) ∧
      ∑ z ∈ T, (a * conj a * (1 - ‖starF' S m a g z‖ ^ 2 : ℝ))⁻¹ = (a * conj a - g * conj g)⁻¹ := by
  obtain ⟨k, hk⟩ := hS
  have hn : (S.card + 1) ^ 2 = S.card + S.card * (S.card + 1) + 1 := by ring
  have hd := lin_deg (conj ζ) (conj g)
  have hcQ : (starQ S * ∏ i ∈ S, starR S m a g ζ i).coeff (S.card + S.card * (S.card + 1)) = conj g ^ S.card := by
    rw [coeff_mul_add_eq_of_natDegree_le (starQ_deg S) (star_prod_deg hd S), starQ_coeff, one_mul, star_prod_coeff]
  obtain ⟨h1, h2, h3⟩ := sum_div_derivative (P := starP S m a g ζ) (Q := starQ S * ∏ i ∈ S, starR S m a g ζ i) (T := T)
    (hT.trans hn) (starP_ne hk (hm k hk) hg) (starP_deg.trans hn.le)
    (natDegree_mul_le.trans (add_le_add (starQ_deg S) (star_prod_deg hd S))) fun z hz => starP_image ha (hi z hz)
  rw [← hn, starP_coeff] at h1 h3
  have hder := fun z (hz : z ∈ T) => star_derivative (c := conj a * a) (P := starP S m a g ζ)
    (Q := starQ S * ∏ i ∈ S, starR S m a g ζ i) ha (fun u hu hu' => by
      rw [starP_eval ha hu hu', eval_mul, eval_prod]
      ring) (hi z hz)
  have hg' : conj g ^ S.card ≠ 0 := pow_ne_zero _ (by simpa using hg)
  refine ⟨left_ne_zero_of_mul h1, fun z hz h => h2 z hz ?_, ?_⟩
  · rw [hder z hz]
    linear_combination (starQ S * ∏ i ∈ S, starR S m a g ζ i).eval z * h
  · rw [hcQ, mul_comm (a * conj a - _), ← div_div, div_self hg', one_div] at h3
    rw [← h3]
    refine Finset.sum_congr rfl fun z hz => ?_
    have h4 := h2 z hz
    rw [hder z hz] at h4 ⊢
    have h5 := right_ne_zero_of_mul (left_ne_zero_of_mul h4)
    exact star_cancel h5

theorem star_unsheared_sum (ha : a ≠ 0) (hm : ∀ i ∈ S, m i ≠ 0) (hS : S.Nonempty) (h1 : ∀ k, S = {k} → a * k ≠ ζ)
    {T : Finset ℂ} (hT : T.card = S.card ^ 2 + 1) (hi : ∀ z ∈ T, StarImage S m a 0 ζ z) :
    (∀ z ∈ T, a * conj a * (1 - ‖starF' S m a 0 z‖ ^ 2 : ℝ) ≠ 0) ∧
      ∑ z ∈ T, (a * conj a * (1 - ‖starF' S m a 0 z‖ ^ 2 : ℝ))⁻¹ = (a * conj a)⁻¹ := by
  have hP : starP0 S m a ζ ≠ 0 := by
    by_cases h : ∃ k ∈ S, a * k ≠ ζ
    · obtain ⟨k, hk, hz⟩ := h
      exact starP0_ne hk (hm k hk) ha hz
    · push Not at h
      obtain ⟨k, hk⟩ := hS
      refine absurd (h k hk) (h1 k (Finset.eq_singleton_iff_unique_mem.2 ⟨hk, fun j hj => ?_⟩))
      exact mul_left_cancel₀ ha ((h j hj).trans (h k hk).symm)
  have hd : (C (conj ζ) + C (conj (0 : ℂ)) * X : ℂ[X]).natDegree ≤ 0 := by simp
  have hn : S.card ^ 2 = S.card * (S.card + 0) := by ring
  obtain ⟨h1, h2, h3⟩ := sum_div_derivative (P := starP0 S m a ζ) (Q := ∏ i ∈ S, starR S m a 0 ζ i) (T := T)
    hT hP starP0_deg ((star_prod_deg hd S).trans hn.ge) fun z hz => starP0_image ha (hi z hz)
  rw [starP0_coeff] at h1 h3
  have hder := fun z (hz : z ∈ T) => star_derivative (c := conj a * a) (P := starP0 S m a ζ)
    (Q := ∏ i ∈ S, starR S m a 0 ζ i) ha (fun u hu hu' => by rw [starP0_eval ha hu hu', eval_prod]) (hi z hz)
  refine ⟨fun z hz h => h2 z hz ?_, ?_⟩
  · rw [hder z hz]
    linear_combination (∏ i ∈ S, starR S m a 0 ζ i).eval z * h
  · rw [hn, star_prod0_coeff, mul_comm, ← div_div, div_self (right_ne_zero_of_mul h1), one_div] at h3
    rw [← h3]
    refine Finset.sum_congr rfl fun z hz => ?_
    have h4 := h2 z hz
    rw [hder z hz] at h4 ⊢
    have h5 := right_ne_zero_of_mul (left_ne_zero_of_mul h4)
    exact star_cancel h5

end

end Caustics
