import Verif.Model.BackendObj
import Verif.Lemmas.NDArray
import Mathlib.Algebra.Order.Field.Rat
import Mathlib.Algebra.BigOperators.Field
import Mathlib.Algebra.Order.BigOperators.Group.Finset
import Mathlib.Tactic.Ring
import Mathlib.Tactic.Linarith
import Mathlib.Tactic.NormNum
import Mathlib.Tactic.FieldSimp
import Mathlib.Tactic.Positivity

/-! C72: array helpers that are written twice, once per array library. -/

namespace Caustics

/-- The full property: whatever torch accepts, jax accepts with the same result. -/
def C72_statement : Prop :=
  (∀ (shape : List ℕ) (s e : ℤ) (r : List ℕ), flattenShapeTorch shape s e = .ok r →
    flattenShapeJax shape s e = .ok r) ∧
  (∀ (ndim : ℕ) (padding : List ℤ) (w : List (ℤ × ℤ)), padWidthTorch ndim padding = .ok w →
    padWidthJax ndim padding = .ok w) ∧
  (∀ (a : Pic ℚ) (k : ℕ) (stride : Option ℕ) (padding : ℕ) (r : Pic ℚ),
    avgPoolTorch a k stride padding = .ok r → ∃ r', avgPoolJax a k stride padding = .ok r' ∧
      r'.h = r.h ∧ r'.w = r.w ∧ ∀ i j, i < r.h → j < r.w → r'.px i j = r.px i j) ∧
  (∀ (a : Pic ℚ) (s : ℕ), 0 < s → ∀ i j, i < a.h * s → j < a.w * s →
    (upsampleJax a s).px i j = (upsampleTorch a s).px i j)

/-! ### flatten -/

private theorem pyTake_eq (l : List ℕ) (s : ℤ) (h1 : -(l.length : ℤ) ≤ s) (h2 : s < l.length) :
    pyTake l s = l.take (s % (l.length : ℤ)).toNat := by
  unfold pyTake
  split_ifs with h
  · rw [Int.emod_eq_of_lt h h2]
  · have : s % (l.length : ℤ) = l.length + s := by
      rw [← Int.add_emod_left]
      exact Int.emod_eq_of_lt (by omega) (by omega)
    rw [this]

/-- `flatten` over any range of axes agrees, except for scalars and arrays with an empty axis. -/
theorem C72_flatten_partial (shape : List ℕ) (hne : shape ≠ []) (h0 : 0 ∉ shape) (s e : ℤ)
    (r : List ℕ) (h : flattenShapeTorch shape s e = .ok r) : flattenShapeJax shape s e = .ok r := by
  have hl : 0 < shape.length := List.length_pos_iff.2 hne
  have hn : (max 1 (shape.length : ℤ)) = shape.length := by omega
  simp only [flattenShapeTorch, hn] at h
  split_ifs at h with hc he
  rw [not_or, not_or, not_or] at hc
  obtain ⟨c1, c2, c3, c4⟩ := hc
  have hnn : (0 : ℤ) < shape.length := by omega
  have hs0 := Int.emod_nonneg s (by omega : (shape.length : ℤ) ≠ 0)
  have he0 := Int.emod_nonneg e (by omega : (shape.length : ℤ) ≠ 0)
  have hs1 := Int.emod_lt_of_pos s hnn
  have he1 := Int.emod_lt_of_pos e hnn
  have htn : (e % (shape.length : ℤ) + 1).toNat = (e % (shape.length : ℤ)).toNat + 1 := by omega
  have ht := pyTake_eq shape s (by omega) (by omega)
  simp only [flattenShapeJax]
  rw [if_neg (by omega), htn, ht]
  generalize hS : (s % (shape.length : ℤ)).toNat = S at *
  generalize hE : (e % (shape.length : ℤ)).toNat = E at *
  have hSE : S ≤ E := by omega
  have hEl : E < shape.length := by omega
  -- the shape in three parts
  have hsplit : shape.prod = (shape.take S).prod * ((shape.drop S).take (E + 1 - S)).prod
      * (shape.drop (E + 1)).prod := by
    conv_lhs => rw [← List.take_append_drop S shape, List.prod_append]
    conv_lhs => rw [← List.take_append_drop (E + 1 - S) (shape.drop S), List.prod_append,
      List.drop_drop]
    rw [show S + (E + 1 - S) = E + 1 by omega, mul_assoc]
  have hp1 : (shape.take S).prod ≠ 0 := by
    rw [ne_eq, List.prod_eq_zero_iff]; exact fun h => h0 (List.mem_of_mem_take h)
  have hp2 : (shape.drop (E + 1)).prod ≠ 0 := by
    rw [ne_eq, List.prod_eq_zero_iff]; exact fun h => h0 (List.mem_of_mem_drop h)
  have hp : (shape.take S).prod * (shape.drop (E + 1)).prod ≠ 0 := mul_ne_zero hp1 hp2
  have hm : shape.prod = ((shape.take S).prod * (shape.drop (E + 1)).prod)
      * ((shape.drop S).take (E + 1 - S)).prod := by rw [hsplit]; ring
  rw [if_neg (by
    rw [not_or, not_not]; exact ⟨hp, by rw [hm, Nat.mul_mod_right]⟩)]
  rw [hm, Nat.mul_div_cancel_left _ (Nat.pos_of_ne_zero hp)]
  exact h

/-- Scalars: one element with torch, ZeroDivisionError with jax; an empty axis outside the range:
jax cannot infer the size. -/
theorem C72_fails_flatten :
    (flattenShapeTorch [] 0 (-1) = .ok [1] ∧ flattenShapeJax [] 0 (-1) = .error .zeroDivision) ∧
    (∀ a b : ℕ, flattenShapeTorch [0, a, b] 1 2 = .ok [0, a * b] ∧
      flattenShapeJax [0, a, b] 1 2 = .error .valueError) := by
  refine ⟨⟨rfl, rfl⟩, fun a b => ⟨?_, ?_⟩⟩
  · simp [flattenShapeTorch]
  · simp [flattenShapeJax, pyTake]

example : flattenShapeTorch [2, 3, 4, 5] (-3) (-2) = .ok [2, 12, 5] ∧
    flattenShapeJax [2, 3, 4, 5] (-3) (-2) = .ok [2, 12, 5] := by decide +kernel

/-! ### pad -/

private theorem padJax_prefix (ndim : ℕ) (padding : List ℤ) (heven : padding.length % 2 = 0) :
    ∀ m, 2 * m ≤ padding.length →
      (List.range m).foldlM (padStep ndim padding) (List.replicate ndim ((0 : ℤ), (0 : ℤ)))
      = .ok ((List.range ndim).map fun d =>
          if ndim - 1 - d < m then
            ((padding[2 * (ndim - 1 - d)]?).getD 0, (padding[2 * (ndim - 1 - d) + 1]?).getD 0)
          else (0, 0)) := by
  intro m
  induction m with
  | zero =>
    intro _
    simp only [List.range_zero, List.foldlM_nil, Nat.not_lt_zero, if_false, pure, Except.pure]
    congr 1
    apply List.ext_getElem <;> simp
  | succ m ih =>
    intro hm
    rw [List.range_succ, List.foldlM_append, ih (by omega)]
    have h1 : padding[2 * m]? = some padding[2 * m] := List.getElem?_eq_getElem (by omega)
    have h2 : padding[2 * m + 1]? = some padding[2 * m + 1] := List.getElem?_eq_getElem (by omega)
    simp only [bind, Except.bind, List.foldlM_cons, List.foldlM_nil, padStep, h1, h2, pure, Except.pure]
    congr 1
    apply List.ext_getElem
    · split_ifs <;> simp
    · intro d hd1 hd2
      simp only [List.length_map, List.length_range] at hd2
      by_cases hmn : m + 1 ≤ ndim
      · simp only [hmn, if_true, List.getElem_set, List.getElem_map, List.getElem_range]
        by_cases hd : ndim - (m + 1) = d
        · have hdm : ndim - 1 - d = m := by omega
          rw [if_pos hd, hdm, if_pos (by omega), h1, h2]
          rfl
        · rw [if_neg hd]
          by_cases hlt : ndim - 1 - d < m
          · rw [if_pos hlt, if_pos (by omega)]
          · rw [if_neg hlt, if_neg (by omega)]
      · simp only [hmn, if_false, List.getElem_map, List.getElem_range]
        rw [if_pos (by omega), if_pos (by omega)]

/-- `pad`: the loop over negative axis numbers pads the axes torch pads, by the same amounts. -/
theorem C72_pad (ndim : ℕ) (padding : List ℤ) (w : List (ℤ × ℤ))
    (h : padWidthTorch ndim padding = .ok w) : padWidthJax ndim padding = .ok w := by
  simp only [padWidthTorch] at h
  split_ifs at h with hc
  rw [not_or] at hc
  simp only [Except.ok.injEq] at h
  rw [← h]
  have hm : (padding.length + 1) / 2 * 2 = padding.length := by omega
  simp only [padWidthJax]
  rw [padJax_prefix ndim padding (by omega) _ (by omega)]
  congr 1
  apply List.map_congr_left
  intro d _
  split_ifs with hd
  · rfl
  · rw [List.getElem?_eq_none (by omega), List.getElem?_eq_none (by omega)]
    rfl

/-- A list for more axes than there are is an error with torch; jax ignores the excess. -/
theorem C72_pad_excess (ndim : ℕ) (padding extra : List ℤ) (h1 : padding.length = 2 * ndim)
    (h2 : extra.length % 2 = 0) (h3 : extra ≠ []) :
    padWidthTorch ndim (padding ++ extra) = .error .valueError ∧
    ∃ w, padWidthTorch ndim padding = .ok w ∧ padWidthJax ndim (padding ++ extra) = .ok w := by
  have hl : 0 < extra.length := List.length_pos_iff.2 h3
  refine ⟨?_, ?_⟩
  · simp only [padWidthTorch]
    rw [if_pos (Or.inr (by rw [List.length_append]; omega))]
  · refine ⟨_, by
      simp only [padWidthTorch]
      rw [if_neg (by omega)], ?_⟩
    simp only [padWidthJax]
    rw [padJax_prefix ndim (padding ++ extra) (by rw [List.length_append]; omega) _
      (by rw [List.length_append]; omega)]
    congr 1
    apply List.map_congr_left
    intro d hd
    simp only [List.mem_range] at hd
    rw [if_pos (by rw [List.length_append]; omega),
      List.getElem?_append_left (by omega), List.getElem?_append_left (by omega)]

/-- A list of odd length is refused by both, with different exceptions. -/
theorem C72_pad_odd (ndim : ℕ) (padding : List ℤ) (h : padding.length % 2 = 1) :
    padWidthTorch ndim padding = .error .valueError ∧ padWidthJax ndim padding = .error .indexError := by
  have key : ∀ (l : List ℕ) (w : List (ℤ × ℤ)), (∃ w', l.foldlM (padStep ndim padding) w = .ok w') ∨
      l.foldlM (padStep ndim padding) w = .error .indexError := by
    intro l
    induction l with
    | nil => exact fun w => Or.inl ⟨w, rfl⟩
    | cons j l ih =>
      intro w
      rw [List.foldlM_cons]
      unfold padStep
      split
      · exact ih _
      · exact Or.inr rfl
  refine ⟨by rw [padWidthTorch, if_pos (Or.inl h)], ?_⟩
  have e : (padding.length + 1) / 2 = padding.length / 2 + 1 := by omega
  rw [padWidthJax, e, List.range_succ, List.foldlM_append]
  rcases key (List.range (padding.length / 2)) (List.replicate ndim (0, 0)) with ⟨w, hw⟩ | hw
  · rw [hw]
    have h2 : padding[2 * (padding.length / 2) + 1]? = none := List.getElem?_eq_none (by omega)
    have h3 : padStep ndim padding w (padding.length / 2) = .error .indexError := by
      unfold padStep
      rw [h2]
      split
      · rename_i h4
        cases h4
      · rfl
    change [padding.length / 2].foldlM (padStep ndim padding) w = _
    rw [List.foldlM_cons, h3]
    rfl
  · rw [hw]
    rfl

example : padWidthJax 4 [1, 2, 3, 4] = .ok [(0, 0), (0, 0), (3, 4), (1, 2)] := by decide +kernel

/-! ### avg_pool2d -/

/-- Without padding the two versions agree: same refusals, shape and pixels. -/
theorem C72_pool_partial {K : Type} [Field K] (a : Pic K) (k : ℕ) (stride : Option ℕ) :
    (∀ e, avgPoolTorch a k stride 0 = .error e → avgPoolJax a k stride 0 = .error e) ∧
    (∀ r, avgPoolTorch a k stride 0 = .ok r → ∃ r', avgPoolJax a k stride 0 = .ok r' ∧
      r'.h = r.h ∧ r'.w = r.w ∧ ∀ i j, i < r.h → j < r.w → r'.px i j = r.px i j) := by
  have hcond : (k = 0 ∨ stride.getD k = 0 ∨ k < 2 * 0 ∨ a.h + 2 * 0 < k ∨ a.w + 2 * 0 < k) ↔
      (k = 0 ∨ stride.getD k = 0 ∨ a.h < k ∨ a.w < k) := by
    simp
  by_cases hc : k = 0 ∨ stride.getD k = 0 ∨ a.h < k ∨ a.w < k
  · have e1 : avgPoolTorch a k stride 0 = .error .valueError := if_pos (hcond.2 hc)
    have e2 : avgPoolJax a k stride 0 = .error .valueError := if_pos hc
    rw [e1, e2]
    exact ⟨fun e h => h, fun r h => by cases h⟩
  · have e1 : avgPoolTorch a k stride 0 = .ok
      { h := (a.h + 2 * 0 - k) / stride.getD k + 1
        w := (a.w + 2 * 0 - k) / stride.getD k + 1
        px := fun i j => (∑ p ∈ Finset.range k, ∑ q ∈ Finset.range k,
          a.at0 ((i * stride.getD k + p : ℕ) - ((0 : ℕ) : ℤ))
            ((j * stride.getD k + q : ℕ) - ((0 : ℕ) : ℤ))) / (k : K) ^ 2 } :=
      if_neg (fun h => hc (hcond.1 h))
    rw [e1]
    refine ⟨fun e h => (by cases h), fun r h => ?_⟩
    rw [Except.ok.injEq] at h
    subst h
    refine ⟨_, if_neg hc, by simp, by simp, fun i j hi hj => ?_⟩
    rw [not_or, not_or, not_or] at hc
    obtain ⟨c1, c2, c3, c4⟩ := hc
    simp only [Nat.mul_zero, Nat.add_zero] at hi hj
    generalize stride.getD k = s at *
    have hs : 0 < s := Nat.pos_of_ne_zero c2
    have hib : i * s ≤ a.h - k :=
      le_trans (Nat.mul_le_mul_right s (Nat.lt_succ_iff.1 hi)) (Nat.div_mul_le_self _ _)
    have hjb : j * s ≤ a.w - k :=
      le_trans (Nat.mul_le_mul_right s (Nat.lt_succ_iff.1 hj)) (Nat.div_mul_le_self _ _)
    simp only
    congr 1
    apply Finset.sum_congr rfl
    intro p hp
    apply Finset.sum_congr rfl
    intro q hq
    rw [Finset.mem_range] at hp hq
    have e1 : ((i * s + p : ℕ) - ((0 : ℕ) : ℤ)) = ((i * s + p : ℕ) : ℤ) := by simp
    have e2 : ((j * s + q : ℕ) - ((0 : ℕ) : ℤ)) = ((j * s + q : ℕ) : ℤ) := by simp
    rw [e1, e2, Pic.at0, if_pos ⟨by omega, by omega, by omega, by omega⟩]
    simp only [Int.toNat_natCast]

/-- What the padding of torch means: it is the pooling, by either library, of the image with a frame of zeros around it. -/
theorem C72_pool_frame {K : Type} [Field K] (a b : Pic K) (k p : ℕ) (stride : Option ℕ) (hp : 2 * p ≤ k)
    (hh : b.h = a.h + 2 * p) (hw : b.w = a.w + 2 * p) (hin : ∀ i j, i < a.h → j < a.w → b.px (i + p) (j + p) = a.px i j)
    (hout : ∀ i j, i < p ∨ a.h + p ≤ i ∨ j < p ∨ a.w + p ≤ j → b.px i j = 0) :
    (∀ e, avgPoolTorch a k stride p = .error e → avgPoolJax b k stride 0 = .error e) ∧
    (∀ r, avgPoolTorch a k stride p = .ok r → ∃ r', avgPoolJax b k stride 0 = .ok r' ∧
      r'.h = r.h ∧ r'.w = r.w ∧ ∀ i j, r'.px i j = r.px i j) := by
  simp only [avgPoolTorch, avgPoolJax, hh, hw]
  have hat : ∀ i j : ℕ, a.at0 ((i : ℤ) - p) ((j : ℤ) - p) = b.px i j := by
    intro i j
    unfold Pic.at0
    by_cases hc : 0 ≤ (i : ℤ) - p ∧ (i : ℤ) - p < a.h ∧ 0 ≤ (j : ℤ) - p ∧ (j : ℤ) - p < a.w
    · rw [if_pos hc, ← hin _ _ (by omega) (by omega)]
      congr 1 <;> omega
    · rw [if_neg hc, hout i j (by omega)]
  by_cases hc : k = 0 ∨ stride.getD k = 0 ∨ a.h + 2 * p < k ∨ a.w + 2 * p < k
  · rw [if_pos (by tauto), if_pos hc]
    exact ⟨fun e h => h, fun r h => (by cases h)⟩
  · rw [if_neg (by rintro (h | h | h | h | h) <;> first | omega | exact hc (by tauto)), if_neg hc]
    refine ⟨fun e h => (by cases h), fun r h => ?_⟩
    rw [Except.ok.injEq] at h
    subst h
    refine ⟨_, rfl, rfl, rfl, fun i j => ?_⟩
    simp only [hat]

/-- A picture of one pixel pooled with a frame of one: the mean of nine numbers, eight of them zero. -/
example : ∃ r, avgPoolTorch (⟨1, 1, fun _ _ => 9⟩ : Pic ℚ) 3 none 1 = .ok r ∧ r.px 0 0 = 1 :=
  ⟨_, rfl, by decide +kernel⟩

/-- With padding they do not: jax ignores it, and the result has another shape. -/
theorem C72_fails_pool {K : Type} [Field K] (a : Pic K) (k p : ℕ) (hk : 2 * p ≤ k) (hp : 0 < p)
    (hh : k ≤ a.h) (hw : k ≤ a.w) :
    ∃ r r', avgPoolTorch a k (some 1) p = .ok r ∧ avgPoolJax a k (some 1) p = .ok r' ∧
      r.h = r'.h + 2 * p := by
  refine ⟨_, _, by
    simp only [avgPoolTorch]
    rw [if_neg (by simp; omega)], by
    simp only [avgPoolJax]
    rw [if_neg (by simp; omega)], ?_⟩
  simp only [Option.getD_some, Nat.div_one]
  omega

private theorem sum_blocks_range {K : Type} [AddCommMonoid K] (f : ℕ → K) (k : ℕ) (n : ℕ) :
    ∑ i ∈ Finset.range n, ∑ p ∈ Finset.range k, f (i * k + p) = ∑ m ∈ Finset.range (n * k), f m := by
  induction n with
  | zero => simp
  | succ n ih =>
    rw [Finset.sum_range_succ, ih, Nat.succ_mul, Finset.sum_range_add]

/-- Pooling by whole blocks keeps the mean: the sum of the pixels is the sum of the result times the
block size. -/
theorem C72_pool_sum {K : Type} [Field K] [CharZero K] (a : Pic K) (k m n : ℕ) (hk : 0 < k)
    (hm : 0 < m) (hn : 0 < n) (hh : a.h = m * k) (hw : a.w = n * k) :
    ∃ r, avgPoolJax a k none 0 = .ok r ∧ r.h = m ∧ r.w = n ∧
      (k : K) ^ 2 * ∑ i ∈ Finset.range m, ∑ j ∈ Finset.range n, r.px i j
        = ∑ i ∈ Finset.range a.h, ∑ j ∈ Finset.range a.w, a.px i j := by
  have hmk : k ≤ m * k := Nat.le_mul_of_pos_left k hm
  have hnk : k ≤ n * k := Nat.le_mul_of_pos_left k hn
  refine ⟨_, by
    simp only [avgPoolJax]
    rw [if_neg (by simp; omega)], ?_, ?_, ?_⟩
  · simp only [Option.getD_none, hh]
    obtain ⟨m', rfl⟩ : ∃ m', m = m' + 1 := ⟨m - 1, by omega⟩
    rw [Nat.succ_mul, Nat.add_sub_cancel, Nat.mul_div_cancel _ hk]
  · simp only [Option.getD_none, hw]
    obtain ⟨n', rfl⟩ : ∃ n', n = n' + 1 := ⟨n - 1, by omega⟩
    rw [Nat.succ_mul, Nat.add_sub_cancel, Nat.mul_div_cancel _ hk]
  · simp only [Option.getD_none]
    have hk0 : (k : K) ^ 2 ≠ 0 := pow_ne_zero _ (Nat.cast_ne_zero.2 (by omega))
    simp_rw [← Finset.sum_div]
    rw [mul_div_cancel₀ _ hk0, hh, hw, ← sum_blocks_range _ k m]
    apply Finset.sum_congr rfl
    intro i _
    rw [Finset.sum_comm]
    apply Finset.sum_congr rfl
    intro p _
    rw [← sum_blocks_range _ k n]

/-! ### upsample2d -/

/-- torch: upsampling keeps the sum of the pixels. -/
theorem C72_upsample_sum {K : Type} [Field K] [CharZero K] (a : Pic K) (s : ℕ) (hs : 0 < s) :
    ∑ i ∈ Finset.range (upsampleTorch a s).h, ∑ j ∈ Finset.range (upsampleTorch a s).w,
        (upsampleTorch a s).px i j
      = ∑ i ∈ Finset.range a.h, ∑ j ∈ Finset.range a.w, a.px i j := by
  simp only [upsampleTorch]
  have hs0 : (s : K) ≠ 0 := Nat.cast_ne_zero.2 (by omega)
  rw [← sum_blocks_range _ s a.h]
  apply Finset.sum_congr rfl
  intro i _
  have hrow : ∀ p ∈ Finset.range s, ∑ j ∈ Finset.range (a.w * s),
      a.px ((i * s + p) / s) (j / s) / (s : K) ^ 2
      = (∑ j ∈ Finset.range a.w, a.px i j) / s := by
    intro p hp
    rw [Finset.mem_range] at hp
    have hd : (i * s + p) / s = i := by
      rw [Nat.add_comm, Nat.add_mul_div_right _ _ hs, Nat.div_eq_of_lt hp, Nat.zero_add]
    rw [hd, ← sum_blocks_range _ s a.w, Finset.sum_div]
    apply Finset.sum_congr rfl
    intro j _
    have : ∀ q ∈ Finset.range s, a.px i ((j * s + q) / s) / (s : K) ^ 2
        = a.px i j / (s : K) ^ 2 := by
      intro q hq
      rw [Finset.mem_range] at hq
      rw [Nat.add_comm, Nat.add_mul_div_right _ _ hs, Nat.div_eq_of_lt hq, Nat.zero_add]
    rw [Finset.sum_congr rfl this, Finset.sum_const, Finset.card_range, nsmul_eq_mul]
    field_simp
  rw [Finset.sum_congr rfl hrow, Finset.sum_const, Finset.card_range, nsmul_eq_mul]
  field_simp

section ordered

variable {K : Type} [Field K] [LinearOrder K] [IsStrictOrderedRing K]

omit [IsStrictOrderedRing K] in
private theorem triW_nonneg (s i k : ℕ) : (0 : K) ≤ triW s i k := le_max_left _ _

private theorem triW_pos (s i : ℕ) (hs : 0 < s) : (0 : K) < triW s i (i / s) := by
  have hs' : (0 : K) < s := by exact_mod_cast hs
  have h1 : i / s * s ≤ i := Nat.div_mul_le_self i s
  have h2 : i < (i / s + 1) * s := by
    have := Nat.lt_div_mul_add (a := i) hs
    rw [Nat.add_mul, Nat.one_mul]; exact this
  have h1' : ((i / s : ℕ) : K) * s ≤ i := by exact_mod_cast h1
  have h2' : (i : K) + 1 ≤ (((i / s : ℕ) : K) + 1) * s := by exact_mod_cast h2
  unfold triW
  rw [lt_max_iff]
  right
  have hlo : ((i / s : ℕ) : K) ≤ ((i : K) + 1 / 2) / s := by
    rw [le_div_iff₀ hs']; linarith
  have hhi : ((i : K) + 1 / 2) / s ≤ ((i / s : ℕ) : K) + 1 := by
    rw [div_le_iff₀ hs']; linarith
  have : |((i : K) + 1 / 2) / s - 1 / 2 - ((i / s : ℕ) : K)| ≤ 1 / 2 := by
    rw [abs_le]; constructor <;> linarith
  linarith

private theorem resizeW_sum (n s i : ℕ) (hs : 0 < s) (hi : i < n * s) :
    ∑ k ∈ Finset.range n, (resizeW n s i k : K) = 1 := by
  simp only [resizeW]
  rw [← Finset.sum_div]
  apply div_self
  apply ne_of_gt
  apply Finset.sum_pos' (fun k _ => triW_nonneg s i k)
  exact ⟨i / s, Finset.mem_range.2 (Nat.div_lt_of_lt_mul (by rwa [Nat.mul_comm] at hi)), triW_pos s i hs⟩

/-- jax: upsampling keeps the *value* of a uniform image. -/
theorem C72_upsample_uniform (a : Pic K) (c : K) (ha : ∀ i j, i < a.h → j < a.w → a.px i j = c)
    (s : ℕ) (hs : 0 < s) (i j : ℕ) (hi : i < a.h * s) (hj : j < a.w * s) :
    (upsampleJax a s).px i j = c := by
  simp only [upsampleJax]
  have : ∀ p ∈ Finset.range a.h, ∑ q ∈ Finset.range a.w,
      (resizeW a.h s i p : K) * resizeW a.w s j q * a.px p q = resizeW a.h s i p * c := by
    intro p hp
    rw [Finset.mem_range] at hp
    have : ∀ q ∈ Finset.range a.w, (resizeW a.h s i p : K) * resizeW a.w s j q * a.px p q
        = resizeW a.w s j q * (resizeW a.h s i p * c) := by
      intro q hq
      rw [ha p q hp (Finset.mem_range.1 hq)]; ring
    rw [Finset.sum_congr rfl this, ← Finset.sum_mul, resizeW_sum _ _ _ hs hj, one_mul]
  rw [Finset.sum_congr rfl this, ← Finset.sum_mul, resizeW_sum _ _ _ hs hi, one_mul]

/-- So every pixel of a uniform image differs between the two, by the factor `scale_factor²`. -/
theorem C72_fails_upsample (a : Pic K) (c : K) (hc : c ≠ 0)
    (ha : ∀ i j, i < a.h → j < a.w → a.px i j = c)
    (s : ℕ) (hs : 2 ≤ s) (i j : ℕ) (hi : i < a.h * s) (hj : j < a.w * s) :
    (upsampleJax a s).px i j = (s : K) ^ 2 * (upsampleTorch a s).px i j ∧
    (upsampleJax a s).px i j ≠ (upsampleTorch a s).px i j := by
  have hs0 : 0 < s := by omega
  have hsK : (2 : K) ≤ s := by exact_mod_cast hs
  have ht : (upsampleTorch a s).px i j = c / (s : K) ^ 2 := by
    simp only [upsampleTorch]
    rw [ha _ _ (Nat.div_lt_of_lt_mul (by rwa [Nat.mul_comm] at hi))
      (Nat.div_lt_of_lt_mul (by rwa [Nat.mul_comm] at hj))]
  have h2 : (s : K) ^ 2 ≠ 0 := pow_ne_zero _ (by linarith)
  rw [C72_upsample_uniform a c ha s hs0 i j hi hj, ht]
  refine ⟨by rw [mul_div_cancel₀ _ h2], fun h => ?_⟩
  rw [eq_div_iff h2] at h
  have h3 : (s : K) ^ 2 = 1 := mul_left_cancel₀ hc (by rw [h, mul_one])
  nlinarith

/-- With `scale_factor = 1` both return the image. -/
theorem C72_upsample_one_partial (a : Pic K) (i j : ℕ) (hi : i < a.h) (hj : j < a.w) :
    (upsampleJax a 1).px i j = a.px i j ∧ (upsampleTorch a 1).px i j = a.px i j := by
  have htri : ∀ i k : ℕ, (triW 1 i k : K) = if k = i then 1 else 0 := by
    intro i k
    simp only [triW, Nat.cast_one, div_one]
    have e : (i : K) + 1 / 2 - 1 / 2 - k = (i : K) - k := by ring
    rw [e]
    split_ifs with h
    · rw [h]; simp
    · apply max_eq_left
      have : (1 : K) ≤ |(i : K) - k| := by
        rcases Nat.lt_or_gt_of_ne h with h | h
        · have : (k : K) + 1 ≤ i := by exact_mod_cast h
          rw [abs_of_nonneg (by linarith)]; linarith
        · have : (i : K) + 1 ≤ k := by exact_mod_cast h
          rw [abs_of_nonpos (by linarith)]; linarith
      linarith
  have hw : ∀ n i k : ℕ, i < n → (resizeW n 1 i k : K) = if k = i then 1 else 0 := by
    intro n i k hin
    simp only [resizeW, htri]
    rw [Finset.sum_ite_eq' (Finset.range n) i, if_pos (Finset.mem_range.2 hin), div_one]
  constructor
  · simp only [upsampleJax, hw _ _ _ hi, hw _ _ _ hj]
    rw [Finset.sum_eq_single i, Finset.sum_eq_single j]
    · simp
    · intro q _ hq; simp [hq]
    · intro h; exact absurd (Finset.mem_range.2 hj) h
    · intro p _ hp; simp [hp]
    · intro h; exact absurd (Finset.mem_range.2 hi) h
  · simp [upsampleTorch]

end ordered

/-- So the claim is false, already for scalars; `C72_fails_pool` and `C72_fails_upsample` break its
other parts. -/
theorem C72_fails : ¬ C72_statement := by
  intro h
  have := h.1 [] 0 (-1) [1] C72_fails_flatten.1.1
  rw [C72_fails_flatten.1.2] at this
  cases this

/-- A uniform 1x1 image upsampled by two. -/
example : (upsampleTorch (⟨1, 1, fun _ _ => (8 : ℚ)⟩ : Pic ℚ) 2).px 1 0 = 2 ∧
    (upsampleJax (⟨1, 1, fun _ _ => (8 : ℚ)⟩ : Pic ℚ) 2).px 1 0 = 8 := by
  refine ⟨by norm_num [upsampleTorch], ?_⟩
  exact C72_upsample_uniform _ 8 (fun _ _ _ _ => rfl) 2 (by omega) 1 0 (by simp) (by simp)

end Caustics
