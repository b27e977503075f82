import Verif.Model.NDArray
import Mathlib.Tactic.Ring
import Mathlib.Tactic.Linarith

/-! Row-major positions, chunked evaluation and slices. -/

namespace Caustics

/-- An index within a shape. -/
def InRange (shape idx : List ℕ) : Prop := List.Forall₂ (· < ·) idx shape

theorem ravel_lt {shape idx : List ℕ} (h : InRange shape idx) : ravel shape idx < shape.prod := by
  induction h with
  | nil => simp [ravel]
  | @cons i n is s hi _ ih =>
    simp only [ravel, List.prod_cons]
    calc i * s.prod + ravel s is < i * s.prod + s.prod := by omega
      _ = (i + 1) * s.prod := by ring
      _ ≤ n * s.prod := Nat.mul_le_mul_right _ hi

theorem unravel_ravel {shape idx : List ℕ} (h : InRange shape idx) :
    unravel shape (ravel shape idx) = idx := by
  induction h with
  | nil => rfl
  | @cons i n is s hi hs ih =>
    have hlt := ravel_lt hs
    have hpos : 0 < s.prod := by omega
    simp only [ravel, unravel]
    have h1 : (i * s.prod + ravel s is) / s.prod = i := by
      rw [Nat.add_comm, Nat.add_mul_div_right _ _ hpos, Nat.div_eq_of_lt hlt, Nat.zero_add]
    have h2 : (i * s.prod + ravel s is) % s.prod = ravel s is := by
      rw [Nat.add_comm, Nat.add_mul_mod_self_right, Nat.mod_eq_of_lt hlt]
    rw [h1, h2, ih]

theorem ravel_append22 {shape idx : List ℕ} (h : InRange shape idx) (i j : ℕ) :
    ravel (shape ++ [2, 2]) (idx ++ [i, j]) = ravel shape idx * 4 + (i * 2 + j) := by
  induction h with
  | nil => simp [ravel]
  | @cons a n is s ha hs ih =>
    simp only [List.cons_append, ravel, ih, List.prod_append]
    simp
    ring

theorem flatten_ok {α : Type} (b : Backend) (x : NArr α) (hb : b = .torch ∨ x.shape ≠ []) :
    ∃ fx, x.flatten b = .ok fx ∧ fx.shape = [x.shape.prod] ∧
      fx.toList = (List.range x.shape.prod).map fun i => x.get (unravel x.shape i) := by
  have key : ∀ s : List ℕ, s = [x.shape.prod] → x.reshape s = .ok ⟨s, fun idx =>
      x.get (unravel x.shape (ravel s idx))⟩ := by
    rintro s rfl
    simp [NArr.reshape]
  have hshape : (match b with
      | .torch => flattenShapeTorch x.shape 0 (-1)
      | .jax => flattenShapeJax x.shape 0 (-1)) = .ok [x.shape.prod] := by
    cases b with
    | torch =>
      simp only [flattenShapeTorch]
      by_cases hs : x.shape = []
      · rw [hs]
        rfl
      · have hl : 0 < x.shape.length := List.length_pos_iff.2 hs
        have hn : (max 1 (x.shape.length : ℤ)) = x.shape.length := by omega
        rw [hn]
        have hc : ¬ ((0 : ℤ) < -(x.shape.length : ℤ) ∨ (x.shape.length : ℤ) ≤ 0 ∨
            (-1 : ℤ) < -(x.shape.length : ℤ) ∨ (x.shape.length : ℤ) ≤ -1) := by omega
        have he : ((-1 : ℤ) % (x.shape.length : ℤ)).toNat = x.shape.length - 1 := by
          rw [Int.emod_def]
          have hd : (-1 : ℤ) / (x.shape.length : ℤ) = -1 :=
            Int.ediv_eq_neg_one_of_neg_of_le (by omega) (by omega)
          rw [hd]; omega
        have hz : ((0 : ℤ) % (x.shape.length : ℤ)).toNat = 0 := by simp
        rw [if_neg hc, he, hz, if_neg (by omega : ¬ x.shape.length - 1 < 0), if_neg hs]
        congr 1
        have : x.shape.length - 1 + 1 = x.shape.length := by omega
        simp [this]
    | jax =>
      have hs : x.shape ≠ [] := by
        rcases hb with h | h
        · cases h
        · exact h
      have hl : 0 < x.shape.length := List.length_pos_iff.2 hs
      simp only [flattenShapeJax]
      rw [if_neg (by omega)]
      have he : ((-1 : ℤ) % (x.shape.length : ℤ) + 1).toNat = x.shape.length := by
        rw [Int.emod_def]
        have hd : (-1 : ℤ) / (x.shape.length : ℤ) = -1 :=
          Int.ediv_eq_neg_one_of_neg_of_le (by omega) (by omega)
        rw [hd]; omega
      rw [he]
      simp [pyTake, Nat.mod_one]
  refine ⟨⟨[x.shape.prod], fun idx => x.get (unravel x.shape (ravel [x.shape.prod] idx))⟩, ?_, rfl, ?_⟩
  · cases b with
    | torch =>
      have hshape : flattenShapeTorch x.shape 0 (-1) = .ok [x.shape.prod] := hshape
      simp only [NArr.flatten, NArr.flattenDims, hshape, bind, Except.bind]
      exact key _ rfl
    | jax =>
      have hshape : flattenShapeJax x.shape 0 (-1) = .ok [x.shape.prod] := hshape
      simp only [NArr.flatten, NArr.flattenDims, hshape, bind, Except.bind]
      exact key _ rfl
  · simp only [NArr.toList, List.prod_singleton]
    apply List.map_congr_left
    intro i _
    simp [ravel]

theorem chunksOf_zip {α β : Type} (c : ℕ) (hc : c ≠ 0) (f : α → α → β) :
    ∀ (n : ℕ) (xs ys : List α), xs.length ≤ n → xs.length = ys.length →
      (List.zipWith (List.zipWith f) (chunksOf c xs) (chunksOf c ys)).flatten
        = List.zipWith f xs ys := by
  intro n
  induction n with
  | zero =>
    intro xs ys hn hl
    have hx : xs = [] := List.length_eq_zero_iff.1 (by omega)
    have hy : ys = [] := List.length_eq_zero_iff.1 (by omega)
    subst hx hy
    rw [chunksOf]; simp
  | succ n ih =>
    intro xs ys hn hl
    by_cases hx : xs = []
    · have hy : ys = [] := List.length_eq_zero_iff.1 (by rw [← hl, hx]; rfl)
      subst hx hy
      rw [chunksOf]; simp
    · have hy : ys ≠ [] := fun h => hx (List.length_eq_zero_iff.1 (by rw [hl, h]; rfl))
      have ex : chunksOf c xs = xs.take c :: chunksOf c (xs.drop c) := by
        rw [chunksOf, dif_neg (by simp [hc, hx])]
      have ey : chunksOf c ys = ys.take c :: chunksOf c (ys.drop c) := by
        rw [chunksOf, dif_neg (by simp [hc, hy])]
      rw [ex, ey]
      have hpos : 0 < xs.length := List.length_pos_iff.2 hx
      simp only [List.zipWith_cons_cons, List.flatten_cons]
      rw [ih (xs.drop c) (ys.drop c) (by simp only [List.length_drop]; omega)
        (by simp only [List.length_drop]; omega)]
      rw [← List.take_zipWith, ← List.drop_zipWith, List.take_append_drop]

theorem vmapPair_ok {α β : Type} (b : Backend) (chunk : Option ℕ) (hc : chunk ≠ some 0)
    (f : α → α → β) (x y : NArr α) (n : ℕ) (hx : x.shape = [n]) (hy : y.shape = [n]) :
    vmapPair b chunk f x y = .ok (List.zipWith f x.toList y.toList) := by
  have hcond : ¬ (x.shape ≠ y.shape ∨ x.shape.length ≠ 1) := by simp [hx, hy]
  have hlen : x.toList.length = y.toList.length := by simp [NArr.toList, hx, hy]
  simp only [vmapPair]
  rw [if_neg hcond]
  cases b with
  | jax => cases chunk <;> rfl
  | torch =>
    cases chunk with
    | none => rfl
    | some c =>
      have hc' : c ≠ 0 := fun h => hc (by rw [h])
      simp only [hc', if_false]
      rw [chunksOf_zip c hc' f _ _ _ le_rfl hlen]

/-- The flattened evaluation, in order. -/
theorem vmapPair_flatten {α β : Type} (b : Backend) (chunk : Option ℕ) (hc : chunk ≠ some 0)
    (f : α → α → β) (x y fx fy : NArr α) (hs : x.shape.prod = y.shape.prod)
    (h1 : fx.shape = [x.shape.prod]) (h2 : fy.shape = [y.shape.prod])
    (h3 : fx.toList = (List.range x.shape.prod).map fun i => x.get (unravel x.shape i))
    (h4 : fy.toList = (List.range y.shape.prod).map fun i => y.get (unravel y.shape i)) :
    vmapPair b chunk f fx fy = .ok ((List.range x.shape.prod).map fun i =>
      f (x.get (unravel x.shape i)) (y.get (unravel y.shape i))) := by
  rw [vmapPair_ok b chunk hc f fx fy x.shape.prod h1 (by rw [h2, hs]), h3, h4, ← hs,
    List.zipWith_map]
  congr 1
  apply List.ext_getElem
  · simp
  · intro i h _
    simp

theorem insertIdx_take {α : Type} (k : ℕ) (v : α) (r m : List α) (hr : k ≤ r.length) :
    (r.take k ++ m ++ r.drop k).insertIdx k v = r.take k ++ (v :: m) ++ r.drop k := by
  have hl : (r.take k).length = k := by simp [hr]
  have key : ∀ (a b : List α), (a ++ b).insertIdx a.length v = a ++ v :: b := by
    intro a b
    induction a with
    | nil => simp
    | cons x xs ih => simp [ih]
  have h2 := key (r.take k) (m ++ r.drop k)
  rw [hl] at h2
  rw [List.append_assoc, h2]
  simp

theorem eraseIdx_drop {α : Type} (k : ℕ) (l : List α) : (l.eraseIdx k).drop k = l.drop (k + 1) := by
  induction l generalizing k with
  | nil => simp
  | cons a l ih => cases k <;> simp [ih]

theorem eraseIdx_take {α : Type} (k : ℕ) (l : List α) : (l.eraseIdx k).take k = l.take k := by
  induction l generalizing k with
  | nil => simp
  | cons a l ih => cases k <;> simp [ih]

theorem drop_take_cons {α : Type} (k d : ℕ) (l : List α) (h : k < l.length) :
    (l.drop k).take (d + 1) = l[k] :: (l.drop (k + 1)).take d := by
  rw [List.drop_eq_getElem_cons h]; rfl

end Caustics
