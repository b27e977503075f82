import Mathlib.LinearAlgebra.Lagrange
import Mathlib.Algebra.Polynomial.Derivative
import Mathlib.Data.Real.Basic
import Mathlib.Tactic.FieldSimp
import Mathlib.Tactic.LinearCombination
import Mathlib.Tactic.Linarith
import Mathlib.Tactic.Positivity
import Mathlib.Tactic.ComputeDegree

/-!
Four images of an isothermal sphere (`m = 2`) or a point mass (`m = 1`) in a uniform field of shear and convergence,
in the axes of the shear: the inverse Jacobian determinants add up to a constant.
-/

namespace Caustics

open Polynomial

/-- `p` is an image of `(b, c)`; `u`, `v` are the eigenvalues of the uniform part, `s p` the deflection by the lens. -/
structure AxisImage (m : ℕ) (u v R b c s : ℝ) (p : ℝ × ℝ) : Prop where
  pos : 0 < s
  rad : s ^ m * (p.1 ^ 2 + p.2 ^ 2) = R ^ 2
  fst : (u - s) * p.1 = b
  snd : (v - s) * p.2 = c

/-- The Jacobian determinant there. -/
noncomputable def axisDet (m : ℕ) (u v s : ℝ) (p : ℝ × ℝ) : ℝ :=
  (u - s) * (v - s) + 2 / m * (s / (p.1 ^ 2 + p.2 ^ 2)) * ((u - s) * p.2 ^ 2 + (v - s) * p.1 ^ 2)

variable {m : ℕ} {u v R b c : ℝ}

theorem AxisImage.radius_pos {s : ℝ} {p : ℝ × ℝ} (hR : 0 < R) (h : AxisImage m u v R b c s p) :
    0 < p.1 ^ 2 + p.2 ^ 2 := by
  have h1 := h.rad
  have h2 : 0 < s ^ m := pow_pos h.pos m
  by_contra hc
  have h3 : p.1 ^ 2 + p.2 ^ 2 = 0 := le_antisymm (not_lt.1 hc) (by positivity)
  rw [h3, mul_zero] at h1
  have : 0 < R ^ 2 := by positivity
  linarith

theorem AxisImage.swap {s : ℝ} {p : ℝ × ℝ} (h : AxisImage m u v R b c s p) : AxisImage m v u R c b s p.swap :=
  ⟨h.pos, by rw [Prod.fst_swap, Prod.snd_swap, add_comm]; exact h.rad, h.snd, h.fst⟩

theorem axisDet_swap (s : ℝ) (p : ℝ × ℝ) : axisDet m v u s p.swap = axisDet m u v s p := by
  simp only [axisDet, Prod.fst_swap, Prod.snd_swap, add_comm (p.2 ^ 2)]
  ring

/-- The polynomial whose roots are the values of `s`. -/
noncomputable def axisPoly (m : ℕ) (u v R b c : ℝ) : ℝ[X] :=
  X ^ m * (C (b ^ 2) * (C v - X) ^ 2 + C (c ^ 2) * (C u - X) ^ 2) - C (R ^ 2) * (C u - X) ^ 2 * (C v - X) ^ 2

theorem axisPoly_deg (hm : m = 1 ∨ m = 2) : (axisPoly m u v R b c).natDegree ≤ 4 := by
  rcases hm with rfl | rfl <;> rw [axisPoly] <;> compute_degree

theorem axisPoly_root {s : ℝ} {p : ℝ × ℝ} (h : AxisImage m u v R b c s p) : (axisPoly m u v R b c).eval s = 0 := by
  simp only [axisPoly, eval_sub, eval_add, eval_mul, eval_pow, eval_C, eval_X]
  rw [← h.fst, ← h.snd, ← h.rad]
  ring

theorem axisPoly_deriv (hm : m = 1 ∨ m = 2) (hR : 0 < R) {s : ℝ} {p : ℝ × ℝ} (h : AxisImage m u v R b c s p) :
    axisDet m u v s p * (m * R ^ 2 * ((u - s) * (v - s))) = s * (axisPoly m u v R b c).derivative.eval s := by
  have hr := (h.radius_pos hR).ne'
  have h1 := h.rad
  have h2 := h.fst
  have h3 := h.snd
  rcases hm with rfl | rfl
  · simp only [axisPoly, axisDet, derivative_sub, derivative_mul, derivative_add, derivative_X, derivative_C,
      derivative_pow, eval_sub, eval_add, eval_mul, eval_pow, eval_C, eval_X, eval_one, eval_zero]
    rw [← h1, ← h2, ← h3]
    field_simp
    push_cast
    ring
  · simp only [axisPoly, axisDet, derivative_sub, derivative_mul, derivative_add, derivative_X, derivative_C,
      derivative_pow, eval_sub, eval_add, eval_mul, eval_pow, eval_C, eval_X, eval_one, eval_zero]
    rw [← h1, ← h2, ← h3]
    field_simp
    push_cast
    ring

theorem quad_sum_generic (hm : m = 1 ∨ m = 2) (hu : u ≠ 0) (hv : v ≠ 0) (hR : 0 < R) (hb : b ≠ 0) (hc : c ≠ 0)
    {T : Finset (ℝ × ℝ)} (hT : T.card = 4) {s : ℝ × ℝ → ℝ} (hs : ∀ p ∈ T, AxisImage m u v R b c (s p) p) :
    (∀ p ∈ T, axisDet m u v (s p) p ≠ 0) ∧ ∑ p ∈ T, (axisDet m u v (s p) p)⁻¹ = m / (u * v) := by
  classical
  have hm0 : (m : ℝ) ≠ 0 := by rcases hm with rfl | rfl <;> norm_num
  have hm1 : m ≠ 0 := by rcases hm with rfl | rfl <;> norm_num
  have hinj : Set.InjOn s T := by
    intro p hp q hq he
    have h1 := hs p hp
    have h2 := hs q hq
    rw [← he] at h2
    refine Prod.ext ?_ ?_
    · refine mul_left_cancel₀ ?_ (h1.fst.trans h2.fst.symm)
      intro h
      have := h1.fst
      rw [h, zero_mul] at this
      exact hb this.symm
    · refine mul_left_cancel₀ ?_ (h1.snd.trans h2.snd.symm)
      intro h
      have := h1.snd
      rw [h, zero_mul] at this
      exact hc this.symm
  set Q := axisPoly m u v R b c with hQ
  set k := Q.coeff 4 with hk
  have hQ0 : Q.eval 0 = -(R ^ 2 * u ^ 2 * v ^ 2) := by
    simp [hQ, axisPoly, hm1]
  have hnod : (Lagrange.nodal T s).natDegree = 4 := by rw [Lagrange.natDegree_nodal, hT]
  have hfac : Q = C k * Lagrange.nodal T s := by
    refine eq_of_degree_sub_lt_of_eval_index_eq T hinj ?_ ?_
    · rw [hT]
      refine (degree_lt_iff_coeff_zero _ _).2 fun n hn => ?_
      rw [coeff_sub, coeff_C_mul]
      rcases hn.lt_or_eq with h | h
      · rw [coeff_eq_zero_of_natDegree_lt (lt_of_le_of_lt (axisPoly_deg hm) h),
          coeff_eq_zero_of_natDegree_lt (by rw [hnod]; exact h)]
        ring
      · rw [← h]
        have h1 := (Lagrange.nodal_monic (s := T) (v := s)).coeff_natDegree
        rw [hnod] at h1
        rw [h1, mul_one, hk, sub_self]
    · intro p hp
      rw [axisPoly_root (hs p hp), eval_mul, Lagrange.eval_nodal_at_node hp, mul_zero]
  have hk0 : k ≠ 0 := by
    intro h
    rw [h, map_zero, zero_mul] at hfac
    rw [hfac, eval_zero] at hQ0
    have : 0 < R ^ 2 * u ^ 2 * v ^ 2 := by positivity
    linarith
  have hder : ∀ p ∈ T, Q.derivative.eval (s p) = k * ∏ q ∈ T.erase p, (s p - s q) := by
    intro p hp
    rw [hfac, derivative_C_mul, eval_mul, eval_C, Lagrange.eval_nodal_derivative_eval_node_eq hp, Lagrange.eval_nodal]
  have hprod0 : ∀ p ∈ T, ∏ q ∈ T.erase p, (s p - s q) ≠ 0 := by
    intro p hp
    refine Finset.prod_ne_zero_iff.2 fun q hq => sub_ne_zero.2 fun he => ?_
    rw [Finset.mem_erase] at hq
    exact hq.1 (hinj hp hq.2 he).symm
  have huv : ∀ p ∈ T, (u - s p) * (v - s p) ≠ 0 := by
    intro p hp
    refine mul_ne_zero ?_ ?_
    · intro h
      have := (hs p hp).fst
      rw [h, zero_mul] at this
      exact hb this.symm
    · intro h
      have := (hs p hp).snd
      rw [h, zero_mul] at this
      exact hc this.symm
  have hdet : ∀ p ∈ T, axisDet m u v (s p) p * (m * R ^ 2 * ((u - s p) * (v - s p))) =
      s p * (k * ∏ q ∈ T.erase p, (s p - s q)) := by
    intro p hp
    rw [axisPoly_deriv hm hR (hs p hp), hder p hp]
  have hne : ∀ p ∈ T, axisDet m u v (s p) p ≠ 0 := by
    intro p hp h
    have := hdet p hp
    rw [h, zero_mul] at this
    exact mul_ne_zero (hs p hp).pos.ne' (mul_ne_zero hk0 (hprod0 p hp)) this.symm
  refine ⟨hne, ?_⟩
  -- the values of `s`, and zero
  have h0T : (0 : ℝ) ∉ T.image s := by
    rw [Finset.mem_image]
    rintro ⟨p, hp, h⟩
    exact (hs p hp).pos.ne' h
  have hcard : (insert 0 (T.image s)).card = 5 := by
    rw [Finset.card_insert_of_notMem h0T, Finset.card_image_of_injOn hinj, hT]
  have hlag := Lagrange.coeff_eq_sum (s := insert 0 (T.image s)) (v := id) (Set.injOn_id _)
    (P := (C u - X) * (C v - X)) (by
      rw [hcard]
      refine lt_of_le_of_lt degree_le_natDegree ?_
      refine lt_of_le_of_lt (WithBot.coe_le_coe.2 (show natDegree _ ≤ 2 by compute_degree)) ?_
      norm_num)
  rw [hcard, coeff_eq_zero_of_natDegree_lt (lt_of_le_of_lt (show natDegree _ ≤ 2 by compute_degree) (by norm_num)),
    Finset.sum_insert h0T, Finset.sum_image hinj, Finset.erase_insert h0T, Finset.prod_image hinj] at hlag
  have hat0 : k * ∏ q ∈ T, (0 - s q) = -(R ^ 2 * u ^ 2 * v ^ 2) := by
    rw [← hQ0, hfac, eval_mul, eval_C, Lagrange.eval_nodal]
  have hterm : ∀ p ∈ T, eval (id (s p)) ((C u - X) * (C v - X)) /
      ∏ j ∈ (insert 0 (T.image s)).erase (s p), (id (s p) - id j) = k / (m * R ^ 2) * (axisDet m u v (s p) p)⁻¹ := by
    intro p hp
    have hsp := (hs p hp).pos.ne'
    have he : (insert 0 (T.image s)).erase (s p) = insert 0 ((T.erase p).image s) := by
      ext x
      simp only [Finset.mem_erase, Finset.mem_insert, Finset.mem_image]
      constructor
      · rintro ⟨h1, rfl | ⟨q, hq, rfl⟩⟩
        · exact .inl rfl
        · exact .inr ⟨q, ⟨fun h => h1 (by rw [h]), hq⟩, rfl⟩
      · rintro (rfl | ⟨q, ⟨h1, hq⟩, rfl⟩)
        · exact ⟨hsp.symm, .inl rfl⟩
        · exact ⟨fun h => h1 (hinj hq hp h), .inr ⟨q, hq, rfl⟩⟩
    have h0 : (0 : ℝ) ∉ (T.erase p).image s := fun h =>
      h0T (Finset.image_subset_image (Finset.erase_subset _ _) h)
    have hinj2 : Set.InjOn s (T.erase p) := hinj.mono (by simp)
    rw [he, Finset.prod_insert h0, Finset.prod_image hinj2]
    simp only [id, eval_mul, eval_sub, eval_C, eval_X, sub_zero]
    have h1 := hdet p hp
    have h2 := hprod0 p hp
    have h3 := hne p hp
    set P := ∏ q ∈ T.erase p, (s p - s q)
    rw [div_eq_iff (mul_ne_zero hsp h2)]
    field_simp
    linear_combination h1
  rw [Finset.sum_congr rfl hterm, ← Finset.mul_sum] at hlag
  simp only [id, eval_mul, eval_sub, eval_C, eval_X, sub_zero] at hlag
  have hp0 : ∏ q ∈ T, (0 - s q) ≠ 0 := by
    intro h
    rw [h, mul_zero] at hat0
    have : 0 < R ^ 2 * u ^ 2 * v ^ 2 := by positivity
    linarith
  set S := ∑ p ∈ T, (axisDet m u v (s p) p)⁻¹
  set P := ∏ q ∈ T, (0 - s q)
  have hR2 : R ≠ 0 := hR.ne'
  rw [eq_div_iff (mul_ne_zero hu hv)]
  have hP : P = -(R ^ 2 * u ^ 2 * v ^ 2) / k := by
    rw [eq_div_iff hk0, ← hat0]
    ring
  rw [hP] at hlag
  field_simp at hlag
  have h5 : k * (-m + u * v * S) = 0 := by linear_combination -hlag
  have h6 := (mul_eq_zero.1 h5).resolve_left hk0
  linear_combination h6

/-! ### Sources on an axis of the shear -/

/-- Two images on the axis. -/
theorem axis_pair (hm : m = 1 ∨ m = 2) (hv : v ≠ 0) (hR : 0 < R) {s t y z : ℝ} (hyz : y ≠ z)
    (hy : AxisImage m u v R b c s (0, y)) (hz : AxisImage m u v R b c t (0, z)) :
    y ≠ 0 ∧ z ≠ 0 ∧ v * (y + z) = m * c ∧
    (m = 1 → v * y * z = -R ^ 2 ∧ s * y = -(v * z) ∧ t * z = -(v * y)) ∧
    (m = 2 → v ^ 2 * (y - z) ^ 2 = 4 * R ^ 2 ∧ 2 * (s * y) = v * (y - z) ∧ 2 * (t * z) = v * (z - y)) := by
  have y0 : y ≠ 0 := by
    rintro rfl
    have := hy.radius_pos hR
    norm_num at this
  have z0 : z ≠ 0 := by
    rintro rfl
    have := hz.radius_pos hR
    norm_num at this
  have h1 := hy.rad
  have h2 := hz.rad
  have h3 := hy.snd
  have h4 := hz.snd
  have hs := hy.pos
  have ht := hz.pos
  simp only at h1 h2 h3 h4
  have hd : y - z ≠ 0 := sub_ne_zero.2 hyz
  rcases hm with rfl | rfl
  · have e1 : v * (y + z) = c := by
      refine mul_left_cancel₀ hd ?_
      linear_combination y * h3 - z * h4 + h1 - h2
    have e2 : v * y * z = -R ^ 2 := by
      linear_combination -(y * h3) - h1 + y * e1
    refine ⟨y0, z0, by rw [e1]; norm_num, fun _ => ⟨e2, ?_, ?_⟩, fun h => by norm_num at h⟩
    · refine mul_left_cancel₀ y0 ?_
      linear_combination h1 + e2
    · refine mul_left_cancel₀ z0 ?_
      linear_combination h2 + e2
  · have k1 : s * y = R ∨ s * y = -R := by
      refine sq_eq_sq_iff_eq_or_eq_neg.1 ?_
      linear_combination h1
    have k2 : t * z = R ∨ t * z = -R := by
      refine sq_eq_sq_iff_eq_or_eq_neg.1 ?_
      linear_combination h2
    have k3 : s * y = -(t * z) := by
      rcases k1 with k1 | k1 <;> rcases k2 with k2 | k2
      · refine absurd (mul_left_cancel₀ hv (?_ : v * y = v * z)) hyz
        linear_combination h3 - h4 + k1 - k2
      · rw [k1, k2, neg_neg]
      · rw [k1, k2]
      · refine absurd (mul_left_cancel₀ hv (?_ : v * y = v * z)) hyz
        linear_combination h3 - h4 + k1 - k2
    have e1 : v * (y + z) = 2 * c := by linear_combination h3 + h4 + k3
    have e2 : 2 * (s * y) = v * (y - z) := by linear_combination k3 - h3 + h4
    refine ⟨y0, z0, by rw [e1]; norm_num, fun h => by norm_num at h, fun _ => ⟨?_, e2, ?_⟩⟩
    · rcases k1 with k1 | k1 <;> rw [k1] at e2
      · linear_combination -(v * (y - z) + 2 * R) * e2
      · linear_combination -(v * (y - z) - 2 * R) * e2
    · linear_combination -e2 + 2 * k3

/-- Two images off the axis. -/
theorem off_axis_pair (huv : u ≠ v) {s t : ℝ} {p q : ℝ × ℝ} (hpq : p ≠ q) (hp1 : p.1 ≠ 0) (hq1 : q.1 ≠ 0)
    (hp : AxisImage m u v R 0 c s p) (hq : AxisImage m u v R 0 c t q) :
    s = u ∧ t = u ∧ q.1 = -p.1 ∧ q.2 = p.2 ∧ (v - u) * p.2 = c ∧ u ^ m * (p.1 ^ 2 + p.2 ^ 2) = R ^ 2 := by
  have hsu : s = u := by
    have := (mul_eq_zero.1 hp.fst).resolve_right hp1
    linarith
  have htu : t = u := by
    have := (mul_eq_zero.1 hq.fst).resolve_right hq1
    linarith
  subst hsu
  have hvu : v - s ≠ 0 := sub_ne_zero.2 huv.symm
  have h2 : q.2 = p.2 := mul_left_cancel₀ hvu (by rw [hp.snd, ← hq.snd, htu])
  have h3 : q.1 ^ 2 = p.1 ^ 2 := by
    have e1 := hp.rad
    have e2 := hq.rad
    rw [htu, h2] at e2
    have := mul_left_cancel₀ (pow_pos hp.pos m).ne' (e2.trans e1.symm)
    linarith
  refine ⟨rfl, htu, ?_, h2, hp.snd, hp.rad⟩
  rcases sq_eq_sq_iff_eq_or_eq_neg.1 h3 with h | h
  · exact absurd (Prod.ext h h2).symm hpq
  · exact h

theorem quad_sum_axis (hm : m = 1 ∨ m = 2) (huv : u ≠ v) (hu : u ≠ 0) (hv : v ≠ 0) (hR : 0 < R)
    {T : Finset (ℝ × ℝ)} (hT : T.card = 4) {s : ℝ × ℝ → ℝ} (hs : ∀ p ∈ T, AxisImage m u v R 0 c (s p) p) :
    (∀ p ∈ T, axisDet m u v (s p) p ≠ 0) ∧ ∑ p ∈ T, (axisDet m u v (s p) p)⁻¹ = m / (u * v) := by
  classical
  have hon : (T.filter fun p => p.1 = 0).card ≤ 2 := by
    by_contra hc
    obtain ⟨p, hp, q, hq, r, hr, hpq, hpr, hqr⟩ := Finset.two_lt_card.1 (not_le.1 hc)
    rw [Finset.mem_filter] at hp hq hr
    obtain ⟨p1, p2⟩ := p
    obtain ⟨q1, q2⟩ := q
    obtain ⟨r1, r2⟩ := r
    obtain ⟨hp, rfl⟩ := hp
    obtain ⟨hq, rfl⟩ := hq
    obtain ⟨hr, rfl⟩ := hr
    have h1 := (axis_pair hm hv hR (fun h => hpq (by rw [h])) (hs _ hp) (hs _ hq)).2.2.1
    have h2 := (axis_pair hm hv hR (fun h => hpr (by rw [h])) (hs _ hp) (hs _ hr)).2.2.1
    refine hqr (Prod.ext rfl (mul_left_cancel₀ hv ?_))
    simp only
    linear_combination h1 - h2
  have hoff : (T.filter fun p => ¬ p.1 = 0).card ≤ 2 := by
    by_contra hc
    obtain ⟨p, hp, q, hq, r, hr, hpq, hpr, hqr⟩ := Finset.two_lt_card.1 (not_le.1 hc)
    rw [Finset.mem_filter] at hp hq hr
    obtain ⟨-, -, h1, h2, -⟩ := off_axis_pair huv hpq hp.2 hq.2 (hs _ hp.1) (hs _ hq.1)
    obtain ⟨-, -, h3, h4, -⟩ := off_axis_pair huv hpr hp.2 hr.2 (hs _ hp.1) (hs _ hr.1)
    exact hqr (Prod.ext (h1.trans h3.symm) (h2.trans h4.symm))
  have hsplit := Finset.card_filter_add_card_filter_not (s := T) (fun p : ℝ × ℝ => p.1 = 0)
  rw [hT] at hsplit
  obtain ⟨a1, a2, ha12, hA⟩ := Finset.card_eq_two.1 (show (T.filter fun p => p.1 = 0).card = 2 by omega)
  obtain ⟨p, q, hpq, hB⟩ := Finset.card_eq_two.1 (show (T.filter fun p => ¬ p.1 = 0).card = 2 by omega)
  have ma1 : a1 ∈ T ∧ a1.1 = 0 :=
    Finset.mem_filter.1 (show a1 ∈ T.filter fun p => p.1 = 0 by rw [hA]; simp)
  have ma2 : a2 ∈ T ∧ a2.1 = 0 :=
    Finset.mem_filter.1 (show a2 ∈ T.filter fun p => p.1 = 0 by rw [hA]; simp)
  have mp : p ∈ T ∧ ¬ p.1 = 0 :=
    Finset.mem_filter.1 (show p ∈ T.filter fun p => ¬ p.1 = 0 by rw [hB]; simp)
  have mq : q ∈ T ∧ ¬ q.1 = 0 :=
    Finset.mem_filter.1 (show q ∈ T.filter fun p => ¬ p.1 = 0 by rw [hB]; simp)
  have hall : ∀ w ∈ T, w = a1 ∨ w = a2 ∨ w = p ∨ w = q := by
    intro w hw
    by_cases h : w.1 = 0
    · have : w ∈ T.filter fun p => p.1 = 0 := Finset.mem_filter.2 ⟨hw, h⟩
      rw [hA] at this
      simp only [Finset.mem_insert, Finset.mem_singleton] at this
      tauto
    · have : w ∈ T.filter fun p => ¬ p.1 = 0 := Finset.mem_filter.2 ⟨hw, h⟩
      rw [hB] at this
      simp only [Finset.mem_insert, Finset.mem_singleton] at this
      tauto
  have hsum : ∑ p ∈ T, (axisDet m u v (s p) p)⁻¹ = (axisDet m u v (s a1) a1)⁻¹ + (axisDet m u v (s a2) a2)⁻¹ +
      ((axisDet m u v (s p) p)⁻¹ + (axisDet m u v (s q) q)⁻¹) := by
    rw [← Finset.sum_filter_add_sum_filter_not T (fun p => p.1 = 0), hA, hB, Finset.sum_pair ha12, Finset.sum_pair hpq]
  rw [hsum]
  have hP := hs p mp.1
  have hrp := (hP.radius_pos hR).ne'
  obtain ⟨b1, b2, b3, b4, b5, b6⟩ := off_axis_pair huv hpq mp.2 mq.2 hP (hs q mq.1)
  obtain ⟨y1, y, rfl⟩ : ∃ y1 y, a1 = (y1, y) := ⟨_, _, rfl⟩
  obtain ⟨z1, z, rfl⟩ : ∃ z1 z, a2 = (z1, z) := ⟨_, _, rfl⟩
  obtain ⟨hya, rfl⟩ := ma1
  obtain ⟨hza, rfl⟩ := ma2
  obtain ⟨y0, z0, c1, c2, c3⟩ := axis_pair hm hv hR (fun h => ha12 (by rw [h])) (hs _ hya) (hs _ hza)
  have hx := mp.2
  have hvu : v - u ≠ 0 := sub_ne_zero.2 huv.symm
  have hyz : y - z ≠ 0 := sub_ne_zero.2 fun h => ha12 (by rw [h])
  have dq : axisDet m u v (s q) q = axisDet m u v (s p) p := by
    simp only [axisDet, b1, b2, b3, b4, neg_sq]
  have hR0 : R ≠ 0 := hR.ne'
  set x := p.1 with hxdef
  set w := p.2 with hwdef
  rcases hm with rfl | rfl
  · obtain ⟨d1, d2, d3⟩ := c2 rfl
    have sy : s (0, y) = -(v * z) / y := by rw [eq_div_iff y0]; exact d2
    have sz : s (0, z) = -(v * y) / z := by rw [eq_div_iff z0]; exact d3
    norm_num at c1 b6
    have hw : w = v * (y + z) / (v - u) := by
      rw [eq_div_iff hvu, c1]
      linarith
    have hN : (u * y + v * z) * (u * z + v * y) * -v = (v - u) ^ 2 * u * x ^ 2 := by
      have e : (v - u) ^ 2 * (u * w ^ 2) = u * (v * (y + z)) ^ 2 := by
        rw [c1, ← b5]
        ring
      linear_combination -(v - u) ^ 2 * b6 + e - (v - u) ^ 2 * d1
    have hN0 : (u * y + v * z) * (u * z + v * y) * -v ≠ 0 := by
      rw [hN]
      positivity
    have n1 : u * y + v * z ≠ 0 := fun h => hN0 (by rw [h]; ring)
    have n2 : u * z + v * y ≠ 0 := fun h => hN0 (by rw [h]; ring)
    have hzy : z - y ≠ 0 := fun h => hyz (by linarith)
    have e1 : axisDet 1 u v (s (0, y)) (0, y) = v * (u * y + v * z) * (y - z) / y ^ 2 := by
      simp only [axisDet, sy]
      field_simp
      push_cast
      ring
    have e2 : axisDet 1 u v (s (0, z)) (0, z) = v * (u * z + v * y) * (z - y) / z ^ 2 := by
      simp only [axisDet, sz]
      field_simp
      push_cast
      ring
    have e3 : axisDet 1 u v (s p) p = 2 * u ^ 2 * (v - u) * x ^ 2 / R ^ 2 := by
      simp only [axisDet, b1, ← hxdef, ← hwdef]
      rw [← b6]
      field_simp
      push_cast
      ring
    refine ⟨?_, ?_⟩
    · intro k hk
      rcases hall k hk with rfl | rfl | rfl | rfl
      · rw [e1]
        positivity
      · rw [e2]
        positivity
      · rw [e3]
        positivity
      · rw [dq, e3]
        positivity
    · rw [dq, e1, e2, e3]
      have hX : x ^ 2 = (u * y + v * z) * (u * z + v * y) * -v / ((v - u) ^ 2 * u) := by
        rw [hN]
        field_simp
      have hRR : R ^ 2 = -(v * y * z) := by linarith
      rw [hX, hRR]
      rw [← neg_sub y z]
      field_simp
      push_cast
      ring
  · obtain ⟨d1, d2, d3⟩ := c3 rfl
    have sy : s (0, y) = v * (y - z) / (2 * y) := by
      rw [eq_div_iff (by positivity)]
      linear_combination d2
    have sz : s (0, z) = v * (z - y) / (2 * z) := by
      rw [eq_div_iff (by positivity)]
      linear_combination d3
    push_cast at c1
    have hN : (2 * u * y - v * y + v * z) * (2 * u * z - v * z + v * y) * -v ^ 2 =
        4 * (v - u) ^ 2 * u ^ 2 * x ^ 2 := by
      have e : 4 * ((v - u) ^ 2 * (u ^ 2 * w ^ 2)) = u ^ 2 * (v * (y + z)) ^ 2 := by
        rw [c1, ← b5]
        ring
      linear_combination -4 * (v - u) ^ 2 * b6 + e + (v - u) ^ 2 * d1
    have hN0 : (2 * u * y - v * y + v * z) * (2 * u * z - v * z + v * y) * -v ^ 2 ≠ 0 := by
      rw [hN]
      positivity
    have n1 : 2 * u * y - v * y + v * z ≠ 0 := fun h => hN0 (by rw [h]; ring)
    have n2 : 2 * u * z - v * z + v * y ≠ 0 := fun h => hN0 (by rw [h]; ring)
    have e1 : axisDet 2 u v (s (0, y)) (0, y) = v * (2 * u * y - v * y + v * z) / (2 * y) := by
      simp only [axisDet, sy]
      field_simp
      push_cast
      ring
    have e2 : axisDet 2 u v (s (0, z)) (0, z) = v * (2 * u * z - v * z + v * y) / (2 * z) := by
      simp only [axisDet, sz]
      field_simp
      push_cast
      ring
    have e3 : axisDet 2 u v (s p) p = u ^ 3 * (v - u) * x ^ 2 / R ^ 2 := by
      simp only [axisDet, b1, ← hxdef, ← hwdef]
      rw [← b6]
      field_simp
      push_cast
      ring
    refine ⟨?_, ?_⟩
    · intro k hk
      rcases hall k hk with rfl | rfl | rfl | rfl
      · rw [e1]
        positivity
      · rw [e2]
        positivity
      · rw [e3]
        positivity
      · rw [dq, e3]
        positivity
    · rw [dq, e1, e2, e3]
      have hX : x ^ 2 = (2 * u * y - v * y + v * z) * (2 * u * z - v * z + v * y) * -v ^ 2 /
          (4 * (v - u) ^ 2 * u ^ 2) := by
        rw [hN]
        field_simp
      have hRR : R ^ 2 = v ^ 2 * (y - z) ^ 2 / 4 := by linarith
      rw [hX, hRR]
      obtain ⟨D, hD⟩ : ∃ D, D = 2 * u * y - v * y + v * z := ⟨_, rfl⟩
      obtain ⟨E, hE⟩ : ∃ E, E = 2 * u * z - v * z + v * y := ⟨_, rfl⟩
      have hD0 : D ≠ 0 := by rw [hD]; exact n1
      have hE0 : E ≠ 0 := by rw [hE]; exact n2
      rw [← hD, ← hE]
      field_simp
      rw [hD, hE]
      push_cast
      ring

/-- Four images: the inverse determinants add up to `m / (u v)`, whatever the source. -/
theorem quad_sum (hm : m = 1 ∨ m = 2) (huv : u ≠ v) (hu : u ≠ 0) (hv : v ≠ 0) (hR : 0 < R) {T : Finset (ℝ × ℝ)}
    (hT : T.card = 4) {s : ℝ × ℝ → ℝ} (hs : ∀ p ∈ T, AxisImage m u v R b c (s p) p) :
    (∀ p ∈ T, axisDet m u v (s p) p ≠ 0) ∧ ∑ p ∈ T, (axisDet m u v (s p) p)⁻¹ = m / (u * v) := by
  classical
  by_cases hb : b = 0
  · subst hb
    exact quad_sum_axis hm huv hu hv hR hT hs
  by_cases hc : c = 0
  · subst hc
    have h := quad_sum_axis (c := b) (s := s ∘ Prod.swap) hm huv.symm hv hu hR
      (T := T.image Prod.swap) (by rw [Finset.card_image_of_injective _ Prod.swap_injective, hT]) (by
        intro p hp
        obtain ⟨q, hq, rfl⟩ := Finset.mem_image.1 hp
        simpa using (hs q hq).swap)
    rw [Finset.sum_image Prod.swap_injective.injOn] at h
    simp only [Function.comp, Prod.swap_swap, axisDet_swap] at h
    refine ⟨fun p hp => ?_, by rw [h.2, mul_comm]⟩
    have := h.1 p.swap (Finset.mem_image_of_mem _ hp)
    rwa [Prod.swap_swap, axisDet_swap] at this
  exact quad_sum_generic hm hu hv hR hb hc hT hs

end Caustics
