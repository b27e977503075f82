import Verif.Model.Interp
import Verif.Spec.Interp
import Mathlib.Tactic.FieldSimp
import Mathlib.Tactic.Ring
import Mathlib.Tactic.Linarith
import Mathlib.Tactic.LinearCombination
import Mathlib.Tactic.NormNum
import Mathlib.Tactic.Positivity

/-! Evaluation of the `interp2d` and `interp3d` models. -/

namespace Caustics

theorem pyIdx_nonneg {n : ℕ} {i : ℤ} (h0 : 0 ≤ i) (h1 : i < n) :
    pyIdx n i = some ⟨i.toNat, by omega⟩ := by
  unfold pyIdx; rw [dif_pos ⟨h0, h1⟩]

theorem pyIdx_isSome {n : ℕ} {i : ℤ} (h0 : -(n : ℤ) ≤ i) (h1 : i < n) :
    ∃ k, pyIdx n i = some k := by
  unfold pyIdx
  by_cases h : 0 ≤ i
  · exact ⟨_, by rw [dif_pos ⟨h, h1⟩]⟩
  · exact ⟨_, by rw [dif_neg (by omega), dif_pos (by omega)]⟩

/-- A row read with Python indexing, 0 where Python raises. -/
def wrap {A : Type*} {n : ℕ} (z : A) (f : Fin n → A) (i : ℤ) : A :=
  match pyIdx n i with
  | some k => f k
  | none => z

theorem wrap_nonneg {A : Type*} {n : ℕ} (z : A) (f : Fin n → A) {i : ℤ} (h0 : 0 ≤ i) (h1 : i < n) :
    wrap z f i = f ⟨i.toNat, by omega⟩ := by
  unfold wrap; rw [pyIdx_nonneg h0 h1]

theorem wrap_nat {A : Type*} {n : ℕ} (z : A) (f : Fin n → A) (i : ℕ) (h1 : i < n) :
    wrap z f (i : ℤ) = f ⟨i, h1⟩ := by
  rw [wrap_nonneg z f (by omega) (by omega)]; simp

variable {K : Type*} [Field K] [LinearOrder K]

theorem imGet_ok {h w : ℕ} (im : Fin h → Fin w → K) {i j : ℤ} (hi0 : -(h : ℤ) ≤ i) (hi1 : i < h)
    (hj0 : -(w : ℤ) ≤ j) (hj1 : j < w) :
    imGet im i j = .ok (wrap 0 (wrap (fun _ => 0) im i) j) := by
  obtain ⟨a, ha⟩ := pyIdx_isSome hi0 hi1
  obtain ⟨b, hb⟩ := pyIdx_isSome hj0 hj1
  simp [imGet, wrap, ha, hb]

theorem cuGet_ok {d h w : ℕ} (cu : Fin d → Fin h → Fin w → K) {t i j : ℤ}
    (ht0 : -(d : ℤ) ≤ t) (ht1 : t < d) (hi0 : -(h : ℤ) ≤ i) (hi1 : i < h)
    (hj0 : -(w : ℤ) ≤ j) (hj1 : j < w) :
    cuGet cu t i j = .ok (wrap 0 (wrap (fun _ => 0) (wrap (fun _ _ => 0) cu t) i) j) := by
  obtain ⟨a, ha⟩ := pyIdx_isSome ht0 ht1
  simp only [cuGet, ha]
  rw [imGet_ok _ hi0 hi1 hj0 hj1]
  simp [wrap, ha]

variable [FloorRing K]

/-- The left neighbour index of linear interpolation. -/
def cell (n : ℕ) (p : K) : ℤ := clamp ⌊p⌋ 0 ((n : ℤ) - 2)


/-- One-dimensional linear interpolation of `f` with cells clamped to `0 .. n-2`. -/
def lin (n : ℕ) (p : K) (f : ℤ → K) : K :=
  f (cell n p) * ((cell n p : K) + 1 - p) + f (cell n p + 1) * (p - (cell n p : K))

theorem cell_bounds {n : ℕ} (h : 1 ≤ n) (p : K) :
    -(n : ℤ) ≤ cell n p ∧ cell n p < n ∧ -(n : ℤ) ≤ cell n p + 1 ∧ cell n p + 1 < n := by
  unfold cell clamp; omega

theorem cell_bounds2 {n : ℕ} (h : 2 ≤ n) (p : K) : 0 ≤ cell n p ∧ cell n p + 1 < n := by
  unfold cell clamp; omega

theorem roundIdx_bounds {n : ℕ} (h : 1 ≤ n) (r : ℤ) :
    0 ≤ clamp r 0 ((n : ℤ) - 1) ∧ clamp r 0 ((n : ℤ) - 1) < n := by
  unfold clamp; omega

variable [IsStrictOrderedRing K]

theorem lin_cell {n : ℕ} {p : K} {j : ℤ} (h0 : 0 ≤ j) (h1 : j + 1 < n) (hp0 : (j : K) ≤ p)
    (hp1 : p ≤ (j : K) + 1) (f : ℤ → K) :
    lin n p f = f j * ((j : K) + 1 - p) + f (j + 1) * (p - (j : K)) := by
  rcases lt_or_eq_of_le hp1 with hlt | heq
  · have hfl : ⌊p⌋ = j := by rw [Int.floor_eq_iff]; exact ⟨hp0, hlt⟩
    have : cell n p = j := by unfold cell clamp; omega
    unfold lin; rw [this]
  · have hfl : ⌊p⌋ = j + 1 := by
      rw [heq]
      have : (j : K) + 1 = ((j + 1 : ℤ) : K) := by push_cast; ring
      rw [this, Int.floor_intCast]
    by_cases hj : j + 2 < n
    · have : cell n p = j + 1 := by unfold cell clamp; omega
      unfold lin; rw [this, heq]; push_cast; ring
    · have : cell n p = j := by unfold cell clamp; omega
      unfold lin; rw [this]

theorem lin_affine (n : ℕ) (p a b : K) (f : ℤ → K) (hf0 : f (cell n p) = a + b * (cell n p : K))
    (hf1 : f (cell n p + 1) = a + b * ((cell n p : K) + 1)) : lin n p f = a + b * p := by
  unfold lin; rw [hf0, hf1]; ring

/-- A cell containing a coordinate between the first and the last pixel centre. -/
theorem exists_cell {n : ℕ} (h : 2 ≤ n) {p : K} (h0 : 0 ≤ p) (h1 : p ≤ (n : K) - 1) :
    ∃ j : ℤ, 0 ≤ j ∧ j + 1 < n ∧ (j : K) ≤ p ∧ p ≤ (j : K) + 1 := by
  have hf0 : 0 ≤ ⌊p⌋ := Int.floor_nonneg.mpr h0
  have hf1 : ⌊p⌋ ≤ (n : ℤ) - 1 := by
    have : (⌊p⌋ : K) ≤ (((n : ℤ) - 1 : ℤ) : K) := by push_cast; exact le_trans (Int.floor_le p) h1
    exact_mod_cast this
  rcases lt_or_eq_of_le hf1 with hlt | heq
  · exact ⟨⌊p⌋, hf0, by omega, Int.floor_le p, (Int.lt_floor_add_one p).le⟩
  · refine ⟨(n : ℤ) - 2, by omega, by omega, ?_, ?_⟩
    · have := Int.floor_le p
      rw [heq] at this
      push_cast at this ⊢
      linarith
    · push_cast; linarith

omit [IsStrictOrderedRing K] in
/-- `interp2d` with the linear method, as nested one-dimensional interpolation. -/
theorem interp2d_linear {h w : ℕ} (hh : 1 ≤ h) (hw : 1 ≤ w) (im : Fin h → Fin w → K) (x y : K)
    (padding : String)
    (hpad : padding = "extrapolate" ∨ padding = "clamp" ∨ padding = "zeros") :
    interp2d im x y "linear" padding = .ok (
      if padding = "zeros" ∧ (offFrame y || offFrame x) = true then 0 else
        lin h (toPix (if padding = "clamp" then clamp y (-1) 1 else y) h) fun i =>
          lin w (toPix (if padding = "clamp" then clamp x (-1) 1 else x) w) fun j =>
            wrap 0 (wrap (fun _ => 0) im i) j) := by
  generalize hx : (if padding = "clamp" then clamp x (-1) 1 else x) = x'
  generalize hy : (if padding = "clamp" then clamp y (-1) 1 else y) = y'
  obtain ⟨a0, a1, a2, a3⟩ := cell_bounds hw (toPix x' w)
  obtain ⟨b0, b1, b2, b3⟩ := cell_bounds hh (toPix y' h)
  unfold interp2d
  rw [if_neg (by rcases hpad with rfl | rfl | rfl <;> simp)]
  simp only [hx, hy]
  rw [if_neg (by decide), if_pos trivial]
  simp only [show ∀ (n : ℕ) (p : K), clamp ⌊p⌋ 0 ((n : ℤ) - 2) = cell n p from fun _ _ => rfl]
  rw [imGet_ok im b0 b1 a0 a1, imGet_ok im b2 b3 a0 a1, imGet_ok im b0 b1 a2 a3,
    imGet_ok im b2 b3 a2 a3]
  simp only [pure_bind, bind, Except.bind, pure, Except.pure]
  congr 1
  split_ifs
  · rfl
  · unfold lin
    push_cast
    ring

omit [IsStrictOrderedRing K] in
/-- `interp3d` with the linear method, as nested one-dimensional interpolation. -/
theorem interp3d_linear {d h w : ℕ} (hd : 1 ≤ d) (hh : 1 ≤ h) (hw : 1 ≤ w)
    (cu : Fin d → Fin h → Fin w → K) (x y t : K)
    (padding : String) (hpad : padding = "extrapolate" ∨ padding = "zeros") :
    interp3d cu x y t "linear" padding = .ok (
      if padding = "zeros" ∧ (offFrame y || offFrame x || offFrame t) = true then 0 else
        lin d (toPix t d) fun k => lin h (toPix y h) fun i => lin w (toPix x w) fun j =>
            wrap 0 (wrap (fun _ => 0) (wrap (fun _ _ => 0) cu k) i) j) := by
  obtain ⟨a0, a1, a2, a3⟩ := cell_bounds hw (toPix x w)
  obtain ⟨b0, b1, b2, b3⟩ := cell_bounds hh (toPix y h)
  obtain ⟨c0, c1, c2, c3⟩ := cell_bounds hd (toPix t d)
  unfold interp3d
  rw [if_neg (by rcases hpad with rfl | rfl <;> simp)]
  simp only
  rw [if_neg (by decide), if_pos trivial]
  simp only [show ∀ (n : ℕ) (p : K), clamp ⌊p⌋ 0 ((n : ℤ) - 2) = cell n p from fun _ _ => rfl]
  rw [cuGet_ok cu c0 c1 b0 b1 a0 a1, cuGet_ok cu c0 c1 b2 b3 a0 a1, cuGet_ok cu c0 c1 b0 b1 a2 a3,
    cuGet_ok cu c0 c1 b2 b3 a2 a3, cuGet_ok cu c2 c3 b0 b1 a0 a1, cuGet_ok cu c2 c3 b2 b3 a0 a1,
    cuGet_ok cu c2 c3 b0 b1 a2 a3, cuGet_ok cu c2 c3 b2 b3 a2 a3]
  simp only [pure_bind, bind, Except.bind, pure, Except.pure]
  congr 1
  split_ifs
  · rfl
  · unfold lin
    ring

omit [IsStrictOrderedRing K] in
theorem interp2d_nearest {h w : ℕ} (hh : 1 ≤ h) (hw : 1 ≤ w) (im : Fin h → Fin w → K) (x y : K)
    (padding : String)
    (hpad : padding = "extrapolate" ∨ padding = "clamp" ∨ padding = "zeros") :
    interp2d im x y "nearest" padding = .ok (
      if padding = "zeros" ∧ (offFrame y || offFrame x) = true then 0 else
        wrap 0 (wrap (fun _ => 0) im
          (clamp (roundHalfEven (toPix (if padding = "clamp" then clamp y (-1) 1 else y) h)) 0 (h - 1)))
          (clamp (roundHalfEven (toPix (if padding = "clamp" then clamp x (-1) 1 else x) w)) 0 (w - 1)))
      := by
  generalize hx : (if padding = "clamp" then clamp x (-1) 1 else x) = x'
  generalize hy : (if padding = "clamp" then clamp y (-1) 1 else y) = y'
  obtain ⟨a0, a1⟩ := roundIdx_bounds hw (roundHalfEven (toPix x' w))
  obtain ⟨b0, b1⟩ := roundIdx_bounds hh (roundHalfEven (toPix y' h))
  unfold interp2d
  rw [if_neg (by rcases hpad with rfl | rfl | rfl <;> simp)]
  simp only [hx, hy, if_true]
  rw [imGet_ok im (by omega) b1 (by omega) a1]
  rfl

omit [IsStrictOrderedRing K] in
theorem interp3d_nearest {d h w : ℕ} (hd : 1 ≤ d) (hh : 1 ≤ h) (hw : 1 ≤ w)
    (cu : Fin d → Fin h → Fin w → K) (x y t : K)
    (padding : String) (hpad : padding = "extrapolate" ∨ padding = "zeros") :
    interp3d cu x y t "nearest" padding = .ok (
      if padding = "zeros" ∧ (offFrame y || offFrame x || offFrame t) = true then 0 else
        wrap 0 (wrap (fun _ => 0) (wrap (fun _ _ => 0) cu
          (clamp (roundHalfEven (toPix t d)) 0 (d - 1)))
          (clamp (roundHalfEven (toPix y h)) 0 (h - 1)))
          (clamp (roundHalfEven (toPix x w)) 0 (w - 1))) := by
  obtain ⟨a0, a1⟩ := roundIdx_bounds hw (roundHalfEven (toPix x w))
  obtain ⟨b0, b1⟩ := roundIdx_bounds hh (roundHalfEven (toPix y h))
  obtain ⟨c0, c1⟩ := roundIdx_bounds hd (roundHalfEven (toPix t d))
  unfold interp3d
  rw [if_neg (by rcases hpad with rfl | rfl <;> simp)]
  simp only [if_true]
  rw [cuGet_ok cu (by omega) c1 (by omega) b1 (by omega) a1]
  rfl

omit [LinearOrder K] [FloorRing K] [IsStrictOrderedRing K] in
theorem toPix_eq (n : ℕ) (x : K) : toPix x n = pixCoord n x := by
  unfold toPix pixCoord; ring

omit [FloorRing K] in
theorem toPix_centre {n : ℕ} (hn : 1 ≤ n) (j : ℕ) : toPix (centre n j : K) n = j := by
  have : (n : K) ≠ 0 := by positivity
  unfold toPix centre
  field_simp
  ring

omit [FloorRing K] in
theorem centre_in_frame {n j : ℕ} (hj : j < n) : -1 ≤ (centre n j : K) ∧ (centre n j : K) ≤ 1 := by
  have hn : (0 : K) < n := by exact_mod_cast (by omega : 0 < n)
  have hj' : (j : K) + 1 ≤ n := by exact_mod_cast hj
  have hj0 : (0 : K) ≤ j := by positivity
  unfold centre
  constructor
  · have : 0 ≤ (2 * (j : K) + 1) / n := by positivity
    linarith
  · have : (2 * (j : K) + 1) / n ≤ 2 := by rw [div_le_iff₀ hn]; linarith
    linarith

omit [FloorRing K] [IsStrictOrderedRing K] in
theorem onFrame {x : K} (h0 : -1 ≤ x) (h1 : x ≤ 1) : offFrame x = false := by
  simp [offFrame, not_lt.mpr h0, not_lt.mpr h1]

omit [FloorRing K] [IsStrictOrderedRing K] in
theorem clamp_id {x : K} (h0 : -1 ≤ x) (h1 : x ≤ 1) : clamp x (-1) 1 = x := by
  unfold clamp; rw [max_eq_left h0, min_eq_left h1]

omit [FloorRing K] [IsStrictOrderedRing K] in
theorem pad_id {x : K} (h0 : -1 ≤ x) (h1 : x ≤ 1) (p : String) :
    (if p = "clamp" then clamp x (-1) 1 else x) = x := by
  split_ifs
  · exact clamp_id h0 h1
  · rfl

theorem round_nat (j : ℕ) : roundHalfEven (j : K) = j := by
  unfold roundHalfEven
  simp

theorem round_near (p : K) : |p - (roundHalfEven p : K)| ≤ 1 / 2 := by
  have h0 := Int.floor_le p
  have h1 := Int.lt_floor_add_one p
  unfold roundHalfEven
  simp only
  split_ifs with ha hb hc <;> push_cast <;> rw [abs_le] <;> constructor <;> linarith

theorem lin_between {n : ℕ} (hn : 2 ≤ n) {p : K} (h0 : 0 ≤ p) (h1 : p ≤ (n : K) - 1)
    {f : ℤ → K} {lo hi : K} (hf : ∀ k : ℤ, 0 ≤ k → k < n → lo ≤ f k ∧ f k ≤ hi) :
    lo ≤ lin n p f ∧ lin n p f ≤ hi := by
  obtain ⟨j, hj0, hj1, hp0, hp1⟩ := exists_cell hn h0 h1
  rw [lin_cell hj0 hj1 hp0 hp1]
  obtain ⟨a0, a1⟩ := hf j hj0 (by omega)
  obtain ⟨b0, b1⟩ := hf (j + 1) (by omega) hj1
  have w0 : 0 ≤ (j : K) + 1 - p := by linarith
  have w1 : 0 ≤ p - (j : K) := by linarith
  constructor
  · have := mul_le_mul_of_nonneg_right a0 w0
    have := mul_le_mul_of_nonneg_right b0 w1
    nlinarith
  · have := mul_le_mul_of_nonneg_right a1 w0
    have := mul_le_mul_of_nonneg_right b1 w1
    nlinarith

end Caustics
