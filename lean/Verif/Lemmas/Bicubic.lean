import Verif.Model.Bicubic
import Verif.Lemmas.Interp2d
import Mathlib.Analysis.Calculus.Deriv.Pow
import Mathlib.Analysis.Calculus.Deriv.Add
import Mathlib.Analysis.Calculus.Deriv.Mul
import Mathlib.Analysis.Calculus.Deriv.Comp
import Mathlib.Analysis.Calculus.Deriv.Shift

/-! Evaluation and differentiation of the bicubic interpolation model. -/

namespace Caustics

section edges

variable {K : Type*} [Field K]

/-- Cubic with end values `a`, `b` and end slopes `c`, `d`. -/
def cubic (a b c d s : K) : K :=
  a * (1 - 3 * s ^ 2 + 2 * s ^ 3) + b * (3 * s ^ 2 - 2 * s ^ 3) + c * (s - 2 * s ^ 2 + s ^ 3)
    + d * (s ^ 3 - s ^ 2)

/-- Derivative of `cubic`. -/
def cubic' (a b c d s : K) : K :=
  a * (6 * s ^ 2 - 6 * s) + b * (6 * s - 6 * s ^ 2) + c * (1 - 4 * s + 3 * s ^ 2)
    + d * (3 * s ^ 2 - 2 * s)

variable (a0 a1 a2 a3 b0 b1 b2 b3 c0 c1 c2 c3 d0 d1 d2 d3 t u : K)

local notation "cc" => bicubicCoef [a0, a1, a2, a3, b0, b1, b2, b3, c0, c1, c2, c3, d0, d1, d2, d3]

theorem coef_row (r : ℕ) (row : List ℤ) (h : BC.getD r [] = row) (i j : ℕ) (hr : 4 * i + j = r)
    (v : List K) : bicubicCoef v i j = (List.zipWith (fun (b : ℤ) x => (b : K) * x) row v).sum := by
  unfold bicubicCoef; rw [hr, h]

syntax "coef_eval" : tactic
macro_rules
  | `(tactic| coef_eval) => `(tactic| (
      simp [bicubicY, bicubicY1, bicubicY2, bicubicY12, bicubicCoef, BC, Finset.sum_range_succ,
        cubic, cubic']
      try ring))

theorem edge_u0 : bicubicY cc t 0 = cubic a0 a1 b0 b1 t ∧ bicubicY1 cc t 0 = cubic' a0 a1 b0 b1 t ∧
    bicubicY2 cc t 0 = cubic c0 c1 d0 d1 t ∧ bicubicY12 cc t 0 = cubic' c0 c1 d0 d1 t := by
  refine ⟨?_, ?_, ?_, ?_⟩ <;> coef_eval

theorem edge_u1 : bicubicY cc t 1 = cubic a3 a2 b3 b2 t ∧ bicubicY1 cc t 1 = cubic' a3 a2 b3 b2 t ∧
    bicubicY2 cc t 1 = cubic c3 c2 d3 d2 t ∧ bicubicY12 cc t 1 = cubic' c3 c2 d3 d2 t := by
  refine ⟨?_, ?_, ?_, ?_⟩ <;> coef_eval

theorem edge_t0 : bicubicY cc 0 u = cubic a0 a3 c0 c3 u ∧ bicubicY1 cc 0 u = cubic b0 b3 d0 d3 u ∧
    bicubicY2 cc 0 u = cubic' a0 a3 c0 c3 u ∧ bicubicY12 cc 0 u = cubic' b0 b3 d0 d3 u := by
  refine ⟨?_, ?_, ?_, ?_⟩ <;> coef_eval

theorem edge_t1 : bicubicY cc 1 u = cubic a1 a2 c1 c2 u ∧ bicubicY1 cc 1 u = cubic b1 b2 d1 d2 u ∧
    bicubicY2 cc 1 u = cubic' a1 a2 c1 c2 u ∧ bicubicY12 cc 1 u = cubic' b1 b2 d1 d2 u := by
  refine ⟨?_, ?_, ?_, ?_⟩ <;> coef_eval

theorem cubic_ends (a b c d : K) : cubic a b c d 0 = a ∧ cubic a b c d 1 = b ∧
    cubic' a b c d 0 = c ∧ cubic' a b c d 1 = d := by
  refine ⟨?_, ?_, ?_, ?_⟩ <;> simp [cubic, cubic'] <;> ring

end edges

section derivs

variable (c : ℕ → ℕ → ℝ)

theorem bicubicY_t (t u : ℝ) : HasDerivAt (fun t => bicubicY c t u) (bicubicY1 c t u) t := by
  unfold bicubicY bicubicY1
  refine HasDerivAt.fun_sum fun i _ => HasDerivAt.fun_sum fun j _ => ?_
  have := ((hasDerivAt_pow i t).const_mul (c i j)).mul_const (u ^ j)
  refine this.congr_deriv (Eq.symm ?_)
  split_ifs with h
  · ring
  · simp [show i = 0 by omega]

theorem bicubicY_u (t u : ℝ) : HasDerivAt (fun u => bicubicY c t u) (bicubicY2 c t u) u := by
  unfold bicubicY bicubicY2
  refine HasDerivAt.fun_sum fun i _ => HasDerivAt.fun_sum fun j _ => ?_
  have := (hasDerivAt_pow j u).const_mul (c i j * t ^ i)
  refine this.congr_deriv (Eq.symm ?_)
  split_ifs with h
  · ring
  · simp [show j = 0 by omega]

theorem bicubicY1_u (t u : ℝ) : HasDerivAt (fun u => bicubicY1 c t u) (bicubicY12 c t u) u := by
  unfold bicubicY1 bicubicY12
  refine HasDerivAt.fun_sum fun i _ => HasDerivAt.fun_sum fun j _ => ?_
  by_cases hi : i > 0
  · simp only [hi, true_and, if_true]
    have := (hasDerivAt_pow j u).const_mul ((i : ℝ) * c i j * t ^ (i - 1))
    refine this.congr_deriv (Eq.symm ?_)
    split_ifs with h
    · ring
    · simp [show j = 0 by omega]
  · simp only [hi, false_and, if_false]
    exact hasDerivAt_const _ _

theorem bicubicY2_t (t u : ℝ) : HasDerivAt (fun t => bicubicY2 c t u) (bicubicY12 c t u) t := by
  unfold bicubicY2 bicubicY12
  refine HasDerivAt.fun_sum fun i _ => HasDerivAt.fun_sum fun j _ => ?_
  by_cases hj : j > 0
  · simp only [hj, and_true, if_true]
    have := ((hasDerivAt_pow i t).const_mul ((j : ℝ) * c i j)).mul_const (u ^ (j - 1))
    refine this.congr_deriv (Eq.symm ?_)
    split_ifs with h
    · ring
    · simp [show i = 0 by omega]
  · simp only [hj, and_false, if_false]
    exact hasDerivAt_const _ _

theorem bicubicY1_t (t u : ℝ) : HasDerivAt (fun t => bicubicY1 c t u) (bicubicY11 c t u) t := by
  unfold bicubicY1 bicubicY11
  refine HasDerivAt.fun_sum fun i _ => HasDerivAt.fun_sum fun j _ => ?_
  by_cases hi : i > 0
  · simp only [hi, if_true]
    have := ((hasDerivAt_pow (i - 1) t).const_mul ((i : ℝ) * c i j)).mul_const (u ^ j)
    refine this.congr_deriv (Eq.symm ?_)
    have hc : ((i - 1 : ℕ) : ℝ) = (i : ℝ) - 1 := by push_cast [Nat.cast_sub hi]; ring
    split_ifs with h
    · rw [hc, Nat.sub_sub]; ring
    · simp [show i = 1 by omega]
  · simp only [hi, if_false, show ¬ i > 1 by omega]
    exact hasDerivAt_const _ _

theorem bicubicY2_u (t u : ℝ) : HasDerivAt (fun u => bicubicY2 c t u) (bicubicY22 c t u) u := by
  unfold bicubicY2 bicubicY22
  refine HasDerivAt.fun_sum fun i _ => HasDerivAt.fun_sum fun j _ => ?_
  by_cases hj : j > 0
  · simp only [hj, if_true]
    have := (hasDerivAt_pow (j - 1) u).const_mul ((j : ℝ) * c i j * t ^ i)
    refine this.congr_deriv (Eq.symm ?_)
    have hc : ((j - 1 : ℕ) : ℝ) = (j : ℝ) - 1 := by push_cast [Nat.cast_sub hj]; ring
    split_ifs with h
    · rw [hc, Nat.sub_sub]; ring
    · simp [show j = 1 by omega]
  · simp only [hj, if_false, show ¬ j > 1 by omega]
    exact hasDerivAt_const _ _

end derivs

section glue

/-- Away from the interior knots the cell is locally constant. -/
theorem cell_eventually {n : ℕ} (hn : 2 ≤ n) (p : ℝ)
    (hp : ∀ k : ℤ, 0 < k → k + 1 < n → p ≠ (k : ℝ)) :
    ∀ᶠ q in nhds p, cell n q = cell n p := by
  by_cases h1 : p < 1
  · have hpc : ∀ q : ℝ, q < 1 → cell n q = 0 := by
      intro q hq
      have : ⌊q⌋ < 1 := by rw [Int.floor_lt]; exact_mod_cast hq
      unfold cell clamp; omega
    filter_upwards [Iio_mem_nhds h1] with q hq
    rw [hpc q hq, hpc p h1]
  · by_cases h2 : (n : ℝ) - 2 < p
    · have hpc : ∀ q : ℝ, (n : ℝ) - 2 < q → cell n q = (n : ℤ) - 2 := by
        intro q hq
        have : (n : ℤ) - 2 ≤ ⌊q⌋ := by
          rw [Int.le_floor]; push_cast; exact hq.le
        unfold cell clamp; omega
      filter_upwards [Ioi_mem_nhds h2] with q hq
      rw [hpc q hq, hpc p h2]
    · push Not at h1 h2
      have hf1 : 1 ≤ ⌊p⌋ := by rw [Int.le_floor]; exact_mod_cast h1
      have hf2 : ⌊p⌋ ≤ (n : ℤ) - 2 := by
        have : (⌊p⌋ : ℝ) ≤ (((n : ℤ) - 2 : ℤ) : ℝ) := by
          push_cast; exact le_trans (Int.floor_le p) h2
        exact_mod_cast this
      have hlt : (⌊p⌋ : ℝ) < p :=
        lt_of_le_of_ne (Int.floor_le p) (fun h => hp ⌊p⌋ (by omega) (by omega) h.symm)
      filter_upwards [Ioo_mem_nhds hlt (Int.lt_floor_add_one p)] with q hq
      have : ⌊q⌋ = ⌊p⌋ := by rw [Int.floor_eq_iff]; exact ⟨hq.1.le, hq.2⟩
      unfold cell; rw [this]

theorem HasDerivAt.shift {f : ℝ → ℝ} {f' p a : ℝ} (h : HasDerivAt f f' (p - a)) :
    HasDerivAt (fun q => f (q - a)) f' p := by
  exact h.comp_sub_const p a

/-- Pieces differentiable on their own give a function differentiable off the knots. -/
theorem glue_off {n : ℕ} (hn : 2 ≤ n) (g g' : ℤ → ℝ → ℝ)
    (hd : ∀ k s, HasDerivAt (g k) (g' k s) s) (p : ℝ)
    (hp : ∀ k : ℤ, 0 < k → k + 1 < n → p ≠ (k : ℝ)) :
    HasDerivAt (fun q => g (cell n q) (q - cell n q)) (g' (cell n p) (p - cell n p)) p := by
  refine (HasDerivAt.shift (hd (cell n p) (p - cell n p))).congr_of_eventuallyEq ?_
  filter_upwards [cell_eventually hn p hp] with q hq
  rw [hq]

/-- Pieces whose values and derivatives agree at the interior knots give a function differentiable
everywhere. -/
theorem glue {n : ℕ} (hn : 2 ≤ n) (g g' : ℤ → ℝ → ℝ)
    (hd : ∀ k s, HasDerivAt (g k) (g' k s) s)
    (hv : ∀ k : ℤ, 0 ≤ k → k + 2 < n → g k 1 = g (k + 1) 0 ∧ g' k 1 = g' (k + 1) 0) (p : ℝ) :
    HasDerivAt (fun q => g (cell n q) (q - cell n q)) (g' (cell n p) (p - cell n p)) p := by
  by_cases hp : ∀ k : ℤ, 0 < k → k + 1 < n → p ≠ (k : ℝ)
  · exact glue_off hn g g' hd p hp
  · push Not at hp
    obtain ⟨k, hk0, hk1, rfl⟩ := hp
    have hc : cell n (k : ℝ) = k := by unfold cell clamp; rw [Int.floor_intCast]; omega
    obtain ⟨e1, e2⟩ := hv (k - 1) (by omega) (by omega)
    rw [sub_add_cancel] at e1 e2
    rw [hc, sub_self]
    have hR : HasDerivWithinAt (fun q => g (cell n q) (q - cell n q)) (g' k 0)
        (Set.Ico (k : ℝ) (k + 1)) (k : ℝ) := by
      have h := (HasDerivAt.shift (a := (k : ℝ)) (p := (k : ℝ)) (f := g k) (f' := g' k 0)
        (by rw [sub_self]; exact hd k 0)).hasDerivWithinAt (s := Set.Ico (k : ℝ) (k + 1))
      refine h.congr (fun q hq => ?_) (by rw [hc])
      have : cell n q = k := by
        have : ⌊q⌋ = k := by rw [Int.floor_eq_iff]; exact hq
        unfold cell clamp; rw [this]; omega
      rw [this]
    have hL : HasDerivWithinAt (fun q => g (cell n q) (q - cell n q)) (g' k 0)
        (Set.Ioc ((k : ℝ) - 1) k) (k : ℝ) := by
      have h := (HasDerivAt.shift (a := ((k - 1 : ℤ) : ℝ)) (p := (k : ℝ)) (f := g (k - 1))
        (f' := g' k 0) (by
          rw [show (k : ℝ) - ((k - 1 : ℤ) : ℝ) = 1 by push_cast; ring, ← e2]
          exact hd (k - 1) 1)).hasDerivWithinAt (s := Set.Ioc ((k : ℝ) - 1) k)
      refine h.congr (fun q hq => ?_) ?_
      · rcases lt_or_eq_of_le hq.2 with hlt | rfl
        · have : cell n q = k - 1 := by
            have : ⌊q⌋ = k - 1 := by
              rw [Int.floor_eq_iff]; push_cast; exact ⟨hq.1.le, by linarith⟩
            unfold cell clamp; rw [this]; omega
          rw [this]
        · rw [hc, sub_self, ← e1]; congr 1; push_cast; ring
      · rw [hc, sub_self, ← e1]; congr 1; push_cast; ring
    refine (hL.union hR).hasDerivAt ?_
    refine Filter.mem_of_superset (Ioo_mem_nhds (a := (k : ℝ) - 1) (b := (k : ℝ) + 1)
      (by linarith) (by linarith)) ?_
    intro q hq
    rcases le_total q k with h | h
    · exact Or.inl ⟨hq.1, h⟩
    · exact Or.inr ⟨h, hq.2⟩

end glue

section eval

variable {K : Type*} [Field K] [LinearOrder K] [FloorRing K] [IsStrictOrderedRing K]

/-- An image read at integer positions. -/
def at2 {h w : ℕ} (m : Fin h → Fin w → K) (i j : ℤ) : K := wrap 0 (wrap (fun _ => 0) m i) j

/-- The four values of a map at the corners of a cell, in the code's order. -/
def corners {h w : ℕ} (m : Fin h → Fin w → K) (i j : ℤ) : List K :=
  [at2 m i j, at2 m i (j + 1), at2 m (i + 1) (j + 1), at2 m (i + 1) j]

/-- The coefficients of the cell with lower corner `(i, j)`. -/
def cellCoef {h w : ℕ} (Z m1 m2 m12 : Fin h → Fin w → K) (i j : ℤ) : ℕ → ℕ → K :=
  bicubicCoef (corners Z i j ++ corners m1 i j ++ corners m2 i j ++ corners m12 i j)

theorem cellPos_eq {n : ℕ} (hn : 2 ≤ n) {x : K} (h0 : -(1 / 2) ≤ x) (h1 : x ≤ (n : K) - 1 / 2) :
    cellPos x n = x - (cell n x : K) := by
  have hfr : Int.fract x = x - ⌊x⌋ := rfl
  have h2 : (2 : K) ≤ n := by exact_mod_cast hn
  unfold cellPos
  rw [hfr]
  split_ifs with ha hb
  · have hf : ⌊x⌋ = -1 := by
      rw [Int.floor_eq_iff]; push_cast; constructor <;> linarith
    have : cell n x = 0 := by unfold cell clamp; rw [hf]; omega
    rw [this, hf]; push_cast; ring
  · have hf : ⌊x⌋ = (n : ℤ) - 1 := by
      rw [Int.floor_eq_iff]; push_cast; constructor <;> linarith
    have : cell n x = (n : ℤ) - 2 := by unfold cell clamp; rw [hf]; omega
    rw [this, hf]; push_cast; ring
  · push Not at ha hb
    have hf0 : 0 ≤ ⌊x⌋ := Int.floor_nonneg.mpr ha
    have hf1 : ⌊x⌋ < (n : ℤ) - 1 := by rw [Int.floor_lt]; push_cast; exact hb
    have : cell n x = ⌊x⌋ := by unfold cell clamp; omega
    rw [this]

omit [IsStrictOrderedRing K] in
theorem cell_succ {n : ℕ} (hn : 2 ≤ n) (x : K) :
    clamp (⌊x⌋ + 1) 1 ((n : ℤ) - 1) = cell n x + 1 := by
  unfold cell clamp; omega

omit [FloorRing K] [IsStrictOrderedRing K] in
theorem resolveMaps_ok {h w : ℕ} (hh : 2 ≤ h) (hw : 2 ≤ w) (Z : Fin h → Fin w → K)
    (dZ1 dZ2 dZ12 : Option (Fin h → Fin w → K)) : ∃ m, resolveMaps Z dZ1 dZ2 dZ12 = .ok m := by
  unfold resolveMaps
  split
  · exact ⟨_, rfl⟩
  · unfold bicubicKernels
    rw [dif_pos ⟨hh, hw⟩]
    exact ⟨_, rfl⟩

/-- The query position in pixels. -/
def bipos (n : ℕ) (x : K) : K := clamp (toPix x n) (-(1 / 2)) ((n : K) - 1 / 2)

theorem bipos_bounds {n : ℕ} (hn : 2 ≤ n) (x : K) :
    -(1 / 2) ≤ bipos n x ∧ bipos n x ≤ (n : K) - 1 / 2 := by
  have h2 : (2 : K) ≤ n := by exact_mod_cast hn
  unfold bipos clamp
  refine ⟨le_min (le_max_right _ _) (by linarith), min_le_right _ _⟩

theorem interpBicubic_eval {h w : ℕ} (hh : 2 ≤ h) (hw : 2 ≤ w) (x y : K) (Z : Fin h → Fin w → K)
    (dZ1 dZ2 dZ12 : Option (Fin h → Fin w → K)) (m1 m2 m12 : Fin h → Fin w → K)
    (hm : resolveMaps Z dZ1 dZ2 dZ12 = .ok (m1, m2, m12)) (getY getdY getddY : Bool) :
    let c := cellCoef Z m1 m2 m12 (cell h (bipos h y)) (cell w (bipos w x))
    let t := bipos w x - (cell w (bipos w x) : K)
    let u := bipos h y - (cell h (bipos h y) : K)
    interpBicubic x y Z dZ1 dZ2 dZ12 getY getdY getddY = .ok (
      (if getY then [bicubicY c t u] else [])
      ++ (if getdY then [bicubicY1 c t u, bicubicY2 c t u] else [])
      ++ (if getddY then [bicubicY12 c t u, bicubicY11 c t u, bicubicY22 c t u] else [])) := by
  intro c t u
  obtain ⟨px0, px1⟩ := bipos_bounds hw x
  obtain ⟨py0, py1⟩ := bipos_bounds hh y
  obtain ⟨a0, a1⟩ := cell_bounds2 hw (bipos w x)
  obtain ⟨b0, b1⟩ := cell_bounds2 hh (bipos h y)
  have ht : cellPos (bipos w x) w = t := cellPos_eq hw px0 px1
  have hu : cellPos (bipos h y) h = u := cellPos_eq hh py0 py1
  have hg : ∀ m : Fin h → Fin w → K, (do
      let a ← imGet m (cell h (bipos h y)) (cell w (bipos w x))
      let b ← imGet m (cell h (bipos h y)) (cell w (bipos w x) + 1)
      let c ← imGet m (cell h (bipos h y) + 1) (cell w (bipos w x) + 1)
      let d ← imGet m (cell h (bipos h y) + 1) (cell w (bipos w x))
      pure [a, b, c, d]) = .ok (corners m (cell h (bipos h y)) (cell w (bipos w x))) := by
    intro m
    rw [imGet_ok m (by omega) (by omega) (by omega) (by omega),
      imGet_ok m (by omega) (by omega) (by omega) (by omega),
      imGet_ok m (by omega) (by omega) (by omega) (by omega),
      imGet_ok m (by omega) (by omega) (by omega) (by omega)]
    rfl
  unfold interpBicubic
  simp only [show ∀ (n : ℕ) (p : K), clamp (toPix p n) (-(1 / 2)) ((n : K) - 1 / 2) = bipos n p
      from fun _ _ => rfl,
    show ∀ (n : ℕ) (p : K), clamp ⌊p⌋ 0 ((n : ℤ) - 2) = cell n p from fun _ _ => rfl,
    cell_succ hw, cell_succ hh, hm, ht, hu, List.mapM_cons, List.mapM_nil, hg]
  simp only [bind, Except.bind, pure, Except.pure]
  rfl

section cells

variable {h w : ℕ} (Z m1 m2 m12 : Fin h → Fin w → K) (i j : ℤ) (t u : K)

omit [LinearOrder K] [FloorRing K] [IsStrictOrderedRing K] in
theorem cell_u0 :
    bicubicY (cellCoef Z m1 m2 m12 i j) t 0
      = cubic (at2 Z i j) (at2 Z i (j + 1)) (at2 m1 i j) (at2 m1 i (j + 1)) t ∧
    bicubicY1 (cellCoef Z m1 m2 m12 i j) t 0
      = cubic' (at2 Z i j) (at2 Z i (j + 1)) (at2 m1 i j) (at2 m1 i (j + 1)) t ∧
    bicubicY2 (cellCoef Z m1 m2 m12 i j) t 0
      = cubic (at2 m2 i j) (at2 m2 i (j + 1)) (at2 m12 i j) (at2 m12 i (j + 1)) t ∧
    bicubicY12 (cellCoef Z m1 m2 m12 i j) t 0
      = cubic' (at2 m2 i j) (at2 m2 i (j + 1)) (at2 m12 i j) (at2 m12 i (j + 1)) t :=
  edge_u0 ..

omit [LinearOrder K] [FloorRing K] [IsStrictOrderedRing K] in
theorem cell_u1 :
    bicubicY (cellCoef Z m1 m2 m12 i j) t 1
      = cubic (at2 Z (i + 1) j) (at2 Z (i + 1) (j + 1)) (at2 m1 (i + 1) j)
          (at2 m1 (i + 1) (j + 1)) t ∧
    bicubicY1 (cellCoef Z m1 m2 m12 i j) t 1
      = cubic' (at2 Z (i + 1) j) (at2 Z (i + 1) (j + 1)) (at2 m1 (i + 1) j)
          (at2 m1 (i + 1) (j + 1)) t ∧
    bicubicY2 (cellCoef Z m1 m2 m12 i j) t 1
      = cubic (at2 m2 (i + 1) j) (at2 m2 (i + 1) (j + 1)) (at2 m12 (i + 1) j)
          (at2 m12 (i + 1) (j + 1)) t ∧
    bicubicY12 (cellCoef Z m1 m2 m12 i j) t 1
      = cubic' (at2 m2 (i + 1) j) (at2 m2 (i + 1) (j + 1)) (at2 m12 (i + 1) j)
          (at2 m12 (i + 1) (j + 1)) t :=
  edge_u1 ..

omit [LinearOrder K] [FloorRing K] [IsStrictOrderedRing K] in
/-- Neighbouring cells agree along their common edge, in both directions. -/
theorem cell_match_x :
    bicubicY (cellCoef Z m1 m2 m12 i j) 1 u = bicubicY (cellCoef Z m1 m2 m12 i (j + 1)) 0 u ∧
    bicubicY1 (cellCoef Z m1 m2 m12 i j) 1 u = bicubicY1 (cellCoef Z m1 m2 m12 i (j + 1)) 0 u ∧
    bicubicY2 (cellCoef Z m1 m2 m12 i j) 1 u = bicubicY2 (cellCoef Z m1 m2 m12 i (j + 1)) 0 u ∧
    bicubicY12 (cellCoef Z m1 m2 m12 i j) 1 u = bicubicY12 (cellCoef Z m1 m2 m12 i (j + 1)) 0 u := by
  unfold cellCoef corners
  simp only [List.cons_append, List.nil_append]
  simp only [edge_t1, edge_t0, and_self]

omit [LinearOrder K] [FloorRing K] [IsStrictOrderedRing K] in
theorem cell_match_y :
    bicubicY (cellCoef Z m1 m2 m12 i j) t 1 = bicubicY (cellCoef Z m1 m2 m12 (i + 1) j) t 0 ∧
    bicubicY1 (cellCoef Z m1 m2 m12 i j) t 1 = bicubicY1 (cellCoef Z m1 m2 m12 (i + 1) j) t 0 ∧
    bicubicY2 (cellCoef Z m1 m2 m12 i j) t 1 = bicubicY2 (cellCoef Z m1 m2 m12 (i + 1) j) t 0 ∧
    bicubicY12 (cellCoef Z m1 m2 m12 i j) t 1 = bicubicY12 (cellCoef Z m1 m2 m12 (i + 1) j) t 0 := by
  unfold cellCoef corners
  simp only [List.cons_append, List.nil_append]
  simp only [edge_u1, edge_u0, and_self]

end cells

end eval

end Caustics
