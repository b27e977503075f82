import Verif.Model.Interp
import Verif.Spec.Interp
import Mathlib.Tactic.FieldSimp
import Mathlib.Tactic.Ring
import Mathlib.Tactic.Linarith
import Mathlib.Tactic.LinearCombination

/-! Evaluation of the `interp1d` model. -/

namespace Caustics

theorem pyGet_nat {A : Type*} (l : List A) (i : ℕ) (h : i < l.length) :
    pyGet l (i : ℤ) = .ok l[i] := by
  have : pyIdx l.length (i : ℤ) = some ⟨i, h⟩ := by
    unfold pyIdx
    rw [dif_pos (by omega)]
    simp
  simp [pyGet, this]

theorem pyGet_neg {A : Type*} (l : List A) (i : ℕ) (h0 : 0 < i) (h : i ≤ l.length) :
    pyGet l (-(i : ℤ)) = .ok (l[l.length - i]'(by omega)) := by
  have : pyIdx l.length (-(i : ℤ)) = some ⟨l.length - i, by omega⟩ := by
    unfold pyIdx
    rw [dif_neg (by omega), dif_pos (by omega)]
    congr 1
    apply Fin.ext
    simp
    omega
  simp [pyGet, this]

variable {K : Type*} [Field K] [LinearOrder K]

theorem searchsorted_spec (l : List K) (hs : l.Pairwise (· < ·)) (v : K) (i : ℕ)
    (hi : i < l.length) : i < searchsorted l v ↔ l[i] < v := by
  induction l generalizing i with
  | nil => simp at hi
  | cons a l ih =>
    rw [List.pairwise_cons] at hs
    unfold searchsorted
    by_cases ha : a < v
    · rw [List.filter_cons_of_pos (by simpa using ha)]
      cases i with
      | zero => simpa using ha
      | succ i =>
        have hi' : i < l.length := by simpa using hi
        have := ih hs.2 i hi'
        simpa [searchsorted] using this
    · have hnone : ∀ b ∈ a :: l, ¬ b < v := by
        intro b hb
        rcases List.mem_cons.mp hb with rfl | hb
        · exact ha
        · exact fun h => ha (lt_trans (hs.1 b hb) h)
      have hempty : (a :: l).filter (fun b => decide (b < v)) = [] := by
        rw [List.filter_eq_nil_iff]
        intro b hb
        simpa using hnone b hb
      rw [hempty]
      simp only [List.length_nil, Nat.not_lt_zero, false_iff]
      exact hnone _ (List.getElem_mem hi)

theorem searchsorted_le (l : List K) (v : K) : searchsorted l v ≤ l.length :=
  List.length_filter_le _ _

theorem slopes_length (x y : List K) (h : x.length = y.length) :
    (slopes x y).length = x.length - 1 := by
  simp [slopes, ← h]

theorem slopes_get (x y : List K) (h : x.length = y.length) (i : ℕ) (hi : i + 1 < x.length) :
    (slopes x y)[i]'(by rw [slopes_length x y h]; omega)
      = (y[i + 1]'(by omega) - y[i]'(by omega)) / (x[i + 1] - x[i]) := by
  simp [slopes]

theorem tangents_length (m : List K) (h : m ≠ []) : (tangents m).length = m.length + 1 := by
  have := List.length_pos_iff.mpr h
  simp [tangents]
  omega

theorem tangents_get (m : List K) (s : ℕ → K) (hs : ∀ i (hi : i < m.length), m[i] = s i)
    (h : m ≠ []) (i : ℕ) (hi : i < m.length + 1) :
    (tangents m)[i]'(by rw [tangents_length m h]; exact hi) = tangentAt s (m.length + 1) i := by
  have hpos := List.length_pos_iff.mpr h
  unfold tangentAt
  simp only [tangents]
  by_cases h0 : i = 0
  · subst h0
    rw [if_pos rfl, List.getElem_append_left (by simp; omega), List.getElem_append_left (by simp; omega)]
    simp [hs 0 hpos]
  · rw [if_neg h0]
    by_cases hn : i = m.length + 1 - 1
    · rw [if_pos hn]
      rw [List.getElem_append_right (by simp; omega)]
      simp only [List.getElem_drop]
      rw [← hs _ (by omega)]
      congr 1
      simp
      omega
    · rw [if_neg hn]
      rw [List.getElem_append_left (by simp; omega), List.getElem_append_right (by simp; omega)]
      simp only [List.getElem_zipWith, List.getElem_tail, List.getElem_dropLast]
      rw [hs _ (by simp; omega), hs _ (by simp; omega)]
      have e1 : (List.take 1 m).length = 1 := by simp; omega
      rw [e1, Nat.sub_add_cancel (by omega)]

/-- The piece of the interpolant between two abscissae. -/
def hermite (xlo xhi ylo yhi mlo mhi v : K) : K :=
  let hh := hPoly ((v - xlo) / (xhi - xlo))
  hh.1 * ylo + hh.2.1 * mlo * (xhi - xlo) + hh.2.2.1 * yhi + hh.2.2.2 * mhi * (xhi - xlo)

theorem tangents_slopes_get (x y : List K) (h : x.length = y.length) (h2 : 2 ≤ x.length) (i : ℕ)
    (hi : i < x.length) :
    ∃ hlt : i < (tangents (slopes x y)).length,
      (tangents (slopes x y))[i]'hlt = knotTangent x y i := by
  have hl := slopes_length x y h
  have hne : slopes x y ≠ [] := by
    intro h0; rw [h0] at hl; simp at hl; omega
  have hlt : i < (tangents (slopes x y)).length := by
    rw [tangents_length _ hne, hl]; omega
  refine ⟨hlt, ?_⟩
  have hs : ∀ j (hj : j < (slopes x y).length), (slopes x y)[j] = slopeAt x y j := by
    intro j hj
    have hj' : j + 1 < x.length := by omega
    rw [slopes_get x y h j hj', slopeAt]
    simp [List.getD_eq_getElem?_getD, hj', show j + 1 < y.length by omega,
      show j < y.length by omega, show j < x.length by omega]
  rw [tangents_get _ _ hs hne i (by omega), knotTangent, hl]
  congr 1
  omega

/-- What `interp1d` returns before the extension rule, and with it. -/
theorem interp1d_eval (x y : List K) (h : x.length = y.length) (h2 : 2 ≤ x.length) (v : K)
    (extend : String) (lo k : ℕ) (hk : searchsorted x.dropLast v = k)
    (hlo : lo = if k = 0 then x.length - 1 else k - 1) :
    ∃ (hk' : k < x.length) (hlo' : lo < x.length),
    interp1d x y v extend = .ok (
      let ret := hermite x[lo] x[k] y[lo] y[k] (knotTangent x y lo) (knotTangent x y k) v
      if extend = "const" then
        if v > x[x.length - 1] then y[x.length - 1] else ret
      else if extend = "linear" then
        if v > x[x.length - 1] then y[x.length - 1] + (v - x[x.length - 1]) *
          (y[x.length - 1] - y[x.length - 2]) / (x[x.length - 1] - x[x.length - 2]) else ret
      else ret) := by
  have hk' : k < x.length := by
    have := searchsorted_le x.dropLast v
    rw [hk, List.length_dropLast] at this
    omega
  have hlo' : lo < x.length := by split_ifs at hlo <;> omega
  refine ⟨hk', hlo', ?_⟩
  have glo : ∀ l : List K, (hl : l.length = x.length) →
      pyGet l ((k : ℤ) - 1) = .ok (l[lo]'(by omega)) := by
    intro l hl
    by_cases h0 : k = 0
    · rw [if_pos h0] at hlo
      subst h0
      have := pyGet_neg l 1 one_pos (by omega)
      simp only [Nat.cast_one] at this
      rw [Nat.cast_zero, zero_sub, this]
      congr 2
      omega
    · rw [if_neg h0] at hlo
      have := pyGet_nat l lo (by omega)
      rw [← this]
      congr 1
      omega
  have ghi : ∀ l : List K, (hl : l.length = x.length) →
      pyGet l ((k : ℤ) - 1 + 1) = .ok (l[k]'(by omega)) := by
    intro l hl
    rw [sub_add_cancel]
    exact pyGet_nat l k (by omega)
  have gm1 : ∀ l : List K, (hl : l.length = x.length) →
      pyGet l (-1) = .ok (l[x.length - 1]'(by omega)) := by
    intro l hl
    have := pyGet_neg l 1 one_pos (by omega)
    simp only [Nat.cast_one] at this
    rw [this]
    simp only [hl]
  have gm2 : ∀ l : List K, (hl : l.length = x.length) →
      pyGet l (-2) = .ok (l[x.length - 2]'(by omega)) := by
    intro l hl
    have := pyGet_neg l 2 two_pos (by omega)
    simp only [Nat.cast_ofNat] at this
    rw [this]
    simp only [hl]
  have hl := slopes_length x y h
  have hne : slopes x y ≠ [] := by
    intro h0; rw [h0] at hl; simp at hl; omega
  have htl : (tangents (slopes x y)).length = x.length := by
    rw [tangents_length _ hne, hl]; omega
  obtain ⟨_, t1⟩ := tangents_slopes_get x y h h2 lo hlo'
  obtain ⟨_, t2⟩ := tangents_slopes_get x y h h2 k hk'
  unfold interp1d
  rw [if_neg (by simpa using h)]
  simp only [hk]
  rw [glo x rfl, ghi x rfl, glo y h.symm, ghi y h.symm, glo _ htl, ghi _ htl, gm1 x rfl,
    gm1 y h.symm, gm2 x rfl, gm2 y h.symm, t1, t2]
  by_cases hc : extend = "const"
  · simp only [hc, if_true]
    rfl
  · by_cases hli : extend = "linear"
    · simp only [hc, hli, if_true, if_false]
      rfl
    · simp only [hc, hli, if_false]
      rfl

end Caustics
