import Verif.Props.Multiplane
import Verif.Lemmas.Grad
import Verif.Lemmas.Lens
import Mathlib.Algebra.BigOperators.Field
import Mathlib.Tactic.FieldSimp
import Mathlib.Tactic.Linarith
import Mathlib.Tactic.Ring

/-! Rays through a sequence of planes: closed form, recursion and bending at each plane. -/

namespace Caustics

/-- The direction of the straight piece from plane `j` to plane `j + 1`, one coordinate. -/
noncomputable def slopeAfter (D p : ℕ → ℝ) (j : ℕ) : ℝ := (D (j + 1) * p (j + 1) - D j * p j) / (D (j + 1) - D j)

/-- The direction of the piece that arrives at plane `j` (from the observer if `j = 0`). -/
noncomputable def slopeBefore (D p : ℕ → ℝ) : ℕ → ℝ
  | 0 => p 0
  | j + 1 => slopeAfter D p j

/-- A path bends by `a j` at each plane iff its positions are given by the multiplane lens equation. -/
theorem bends_iff (D p a : ℕ → ℝ) (N : ℕ) (hD : ∀ i ≤ N, 0 < D i) (hlt : ∀ i < N, D i < D (i + 1)) :
    (∀ j < N, slopeBefore D p j - slopeAfter D p j = a j) ↔
      ∀ i ≤ N, p i = p 0 - ∑ k ∈ Finset.range i, (D i - D k) / D i * a k := by
  have conv : ∀ i ≤ N, (p i = p 0 - ∑ k ∈ Finset.range i, (D i - D k) / D i * a k) ↔
      D i * p i = D i * p 0 - ∑ k ∈ Finset.range i, (D i - D k) * a k := by
    intro i hi
    have h0 := (hD i hi).ne'
    have e : ∑ k ∈ Finset.range i, (D i - D k) / D i * a k = (∑ k ∈ Finset.range i, (D i - D k) * a k) / D i := by
      rw [Finset.sum_div]; exact Finset.sum_congr rfl fun k _ => by ring
    rw [e]
    constructor
    · intro h; rw [h]; field_simp
    · intro h; field_simp; linarith
  have step : ∀ i, ∑ k ∈ Finset.range (i + 1), (D (i + 1) - D k) * a k
      = ∑ k ∈ Finset.range i, (D i - D k) * a k + (D (i + 1) - D i) * ∑ k ∈ Finset.range (i + 1), a k := by
    intro i
    rw [Finset.sum_range_succ, Finset.sum_range_succ, mul_add, Finset.mul_sum, ← add_assoc, ← Finset.sum_add_distrib]
    congr 1
    exact Finset.sum_congr rfl fun k _ => by ring
  constructor
  · intro h
    have hs : ∀ j < N, slopeAfter D p j = p 0 - ∑ k ∈ Finset.range (j + 1), a k := by
      intro j
      induction j with
      | zero => intro hj; have := h 0 hj; simp only [slopeBefore] at this; simp; linarith
      | succ j ih =>
        intro hj
        have h1 := h (j + 1) hj
        simp only [slopeBefore] at h1
        rw [ih (by omega)] at h1
        rw [Finset.sum_range_succ]
        linarith
    have hx : ∀ i ≤ N, D i * p i = D i * p 0 - ∑ k ∈ Finset.range i, (D i - D k) * a k := by
      intro i
      induction i with
      | zero => intro _; simp
      | succ i ih =>
        intro hi
        have hd : D (i + 1) - D i ≠ 0 := (sub_pos.2 (hlt i (by omega))).ne'
        have h1 := hs i (by omega)
        unfold slopeAfter at h1
        rw [div_eq_iff hd] at h1
        rw [step]
        have := ih (by omega)
        linear_combination h1 + this
    exact fun i hi => (conv i hi).2 (hx i hi)
  · intro h
    have hx : ∀ i ≤ N, D i * p i = D i * p 0 - ∑ k ∈ Finset.range i, (D i - D k) * a k :=
      fun i hi => (conv i hi).1 (h i hi)
    have hs : ∀ j < N, slopeAfter D p j = p 0 - ∑ k ∈ Finset.range (j + 1), a k := by
      intro j hj
      have hd : D (j + 1) - D j ≠ 0 := (sub_pos.2 (hlt j hj)).ne'
      unfold slopeAfter
      rw [div_eq_iff hd]
      have h1 := hx (j + 1) (by omega)
      have h2 := hx j (by omega)
      rw [step] at h1
      linear_combination h1 - h2
    intro j hj
    cases j with
    | zero => rw [hs 0 hj]; simp [slopeBefore]
    | succ j =>
      simp only [slopeBefore]
      rw [hs j (by omega), hs (j + 1) hj, Finset.sum_range_succ _ (j + 1)]
      ring

/-- The multiplane lens equation for planes numbered `0, 1, ..., N - 1` at redshifts `Z i`, with the source
at `Z N`. -/
def IsSeqRay (dist : ℝ → ℝ) (Z : ℕ → ℝ) (al : ℕ → ℝ → ℝ → ℝ × ℝ) (N : ℕ) (x y : ℝ) (b : ℕ → ℝ × ℝ) : Prop :=
  ∀ i ≤ N, (b i).1 = x - ∑ k ∈ Finset.range i, (dist (Z i) - dist (Z k)) / dist (Z i) * (al k (b k).1 (b k).2).1 ∧
    (b i).2 = y - ∑ k ∈ Finset.range i, (dist (Z i) - dist (Z k)) / dist (Z i) * (al k (b k).1 (b k).2).2

theorem seqRay_exists (dist : ℝ → ℝ) (Z : ℕ → ℝ) (al : ℕ → ℝ → ℝ → ℝ × ℝ) (N : ℕ) (x y : ℝ) :
    ∃ b, IsSeqRay dist Z al N x y b := by
  induction N with
  | zero => exact ⟨fun _ => (x, y), fun i hi => by obtain rfl : i = 0 := by omega
                                                   simp⟩
  | succ N ih =>
    obtain ⟨b, hb⟩ := ih
    obtain ⟨v, hv1, hv2⟩ : ∃ v : ℝ × ℝ,
        v.1 = x - ∑ k ∈ Finset.range (N + 1), (dist (Z (N + 1)) - dist (Z k)) / dist (Z (N + 1)) * (al k (b k).1 (b k).2).1 ∧
        v.2 = y - ∑ k ∈ Finset.range (N + 1), (dist (Z (N + 1)) - dist (Z k)) / dist (Z (N + 1)) * (al k (b k).1 (b k).2).2 :=
      ⟨(_, _), rfl, rfl⟩
    refine ⟨Function.update b (N + 1) v, ?_⟩
    intro i hi
    have hk : ∀ k ∈ Finset.range i, Function.update b (N + 1) v k = b k := by
      intro k hk
      exact Function.update_of_ne (by have := Finset.mem_range.1 hk; omega) _ _
    by_cases h : i = N + 1
    · subst h
      rw [Function.update_self]
      constructor
      · rw [hv1]
        congr 1
        exact Finset.sum_congr rfl fun k hk' => by rw [hk k hk']
      · rw [hv2]
        congr 1
        exact Finset.sum_congr rfl fun k hk' => by rw [hk k hk']
    · rw [Function.update_of_ne h]
      have := hb i (by omega)
      constructor
      · rw [this.1]
        congr 1
        exact Finset.sum_congr rfl fun k hk' => by rw [hk k hk']
      · rw [this.2]
        congr 1
        exact Finset.sum_congr rfl fun k hk' => by rw [hk k hk']

theorem sum_filter_map_range (n : ℕ) (P : ℕ → Prop) [DecidablePred P] (f : MPlane ℝ → ℝ) (Q : MPlane ℝ → Bool)
    (L : ℕ → MPlane ℝ) (hQ : ∀ k, Q (L k) = decide (P k)) :
    (((((List.range n).map L).filter Q)).map f).sum = ∑ k ∈ Finset.range n, if P k then f (L k) else 0 := by
  induction n with
  | zero => simp
  | succ n ih =>
    rw [List.range_succ, List.map_append, List.filter_append, List.map_append, List.sum_append, ih,
      Finset.sum_range_succ]
    congr 1
    by_cases h : P n <;> simp [hQ, h]

/-- `raytrace` of the first `i` planes, with plane `i` as source plane, gives the position on that plane. -/
theorem seqRay_raytrace (e : MPEnv ℝ) (hr : e.radToArcsec ≠ 0) (L : ℕ → MPlane ℝ) (Z : ℕ → ℝ) (N : ℕ)
    (hZ : ∀ k < N, (L k).z = Z k) (h0 : 0 < Z 0) (hlt : ∀ k < N, Z k < Z (k + 1)) (hd : ∀ z, 0 < z → e.dist z ≠ 0)
    (x y : ℝ) (b : ℕ → ℝ × ℝ) (hb : IsSeqRay e.dist Z (fun k => (L k).alpha) N x y b) {i : ℕ} (hi0 : 0 < i)
    (hi : i ≤ N) : mpRaytrace e (Z i) ((List.range i).map L) x y = some (b i) := by
  have hmono : ∀ m k, m < k → k ≤ N → Z m < Z k := by
    intro m k hmk
    induction k with
    | zero => omega
    | succ k ih =>
      intro hk
      rcases Nat.lt_succ_iff_lt_or_eq.1 hmk with h | h
      · exact (ih h (by omega)).trans (hlt k (by omega))
      · subst h; exact hlt _ (by omega)
  have hpos : ∀ k ≤ N, 0 < Z k := by
    intro k hk
    rcases Nat.eq_zero_or_pos k with rfl | h
    · exact h0
    · exact h0.trans (hmono 0 k h hk)
  have hiff : ∀ m k, m < i → k < i → (Z m < Z k ↔ m < k) := by
    intro m k hm hk
    constructor
    · intro h
      by_contra hc
      rcases Nat.lt_or_eq_of_le (Nat.le_of_not_lt hc) with h' | h'
      · exact absurd (hmono k m h' (by omega)) (not_lt.2 h.le)
      · subst h'; exact lt_irrefl _ h
    · exact fun h => hmono m k h (by omega)
  -- the ray as a function of redshift
  set bx : ℝ → ℝ := fun z => x - ∑ k ∈ Finset.range i, if Z k < z then
    (e.dist z - e.dist (Z k)) / e.dist z * ((L k).alpha (b k).1 (b k).2).1 else 0 with hbx
  set by' : ℝ → ℝ := fun z => y - ∑ k ∈ Finset.range i, if Z k < z then
    (e.dist z - e.dist (Z k)) / e.dist z * ((L k).alpha (b k).1 (b k).2).2 else 0 with hby
  have hcut : ∀ (j : ℕ), j ≤ i → ∀ f : ℕ → ℝ, (∑ k ∈ Finset.range i, if Z k < Z j then f k else 0)
      = ∑ k ∈ Finset.range j, f k := by
    intro j hj f
    rw [← Finset.sum_filter]
    congr 1
    ext k
    simp only [Finset.mem_filter, Finset.mem_range]
    constructor
    · rintro ⟨h1, h2⟩
      rcases Nat.lt_or_eq_of_le hj with h | h
      · exact (hiff k j h1 h).1 h2
      · omega
    · exact fun h => ⟨by omega, hmono k j h (by omega)⟩
  have hval : ∀ j ≤ i, (bx (Z j), by' (Z j)) = b j := by
    intro j hj
    have := hb j (by omega)
    ext
    · simp only [hbx]; rw [hcut j hj, this.1]
    · simp only [hby]; rw [hcut j hj, this.2]
  have hsort : SortedByZ ((List.range i).map L) := by
    unfold SortedByZ
    rw [List.pairwise_map]
    have := List.pairwise_lt_range (n := i)
    refine this.imp_of_mem ?_
    intro m k hm hk hmk
    rw [hZ m (by have := List.mem_range.1 hm; omega), hZ k (by have := List.mem_range.1 hk; omega)]
    exact (hmono m k hmk (by have := List.mem_range.1 hk; omega)).le
  have hbet : Between e.dist ((List.range i).map L) (Z i) := by
    refine ⟨?_, hpos i hi, hd⟩
    intro l hl
    obtain ⟨k, hk, rfl⟩ := List.mem_map.1 hl
    have hk := List.mem_range.1 hk
    rw [hZ k (by omega)]
    exact ⟨hpos k (by omega), hmono k i hk hi⟩
  have hray : IsRay e.dist ((List.range i).map L) x y fun z => (bx z, by' z) := by
    intro z hz
    have hl : ∀ c : ℝ × ℝ → ℝ, ((((List.range i).map L).filter fun l => l.z < z).map fun l =>
        (e.dist z - e.dist l.z) / e.dist z * c (l.alpha (bx l.z) (by' l.z))).sum
        = ∑ k ∈ Finset.range i, if Z k < z then
          (e.dist z - e.dist (Z k)) / e.dist z * c ((L k).alpha (b k).1 (b k).2) else 0 := by
      intro c
      rw [sum_filter_map_range i (fun k => (L k).z < z) _ _ L (fun k => rfl)]
      refine Finset.sum_congr rfl fun k hk => ?_
      have hk := Finset.mem_range.1 hk
      have hv := hval k hk.le
      rw [hZ k (by omega), ← hv]
    exact ⟨by simp only [hbx]; rw [← hl Prod.fst], by simp only [hby]; rw [← hl Prod.snd]⟩
  have hne : (List.range i).map L ≠ [] := by simp; omega
  rw [C16_lens_equation e (Z i) hr _ hne hsort hbet x y _ hray]
  exact congrArg some (hval i le_rfl)

end Caustics
