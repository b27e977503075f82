import Verif.Lemmas.Rounding
import Verif.Props.Admissible

/-! C116: what rounding does to the deflections. -/

open Real

namespace Caustics

section simple

variable {A : Arith} {u : ℝ} (hA : A.Rounds u) (h0 : 0 ≤ u) (h1 : u < 1)
include hA h0 h1

/-- SIS: seven roundings for the deflection, five for the potential, six for the convergence, wherever the lens is. -/
theorem C116_sis (x0 y0 Rein s x y : ℝ) (hs : 0 ≤ s) (hp : (x, y) ≠ (x0, y0)) :
    |(A.sisDeflection x0 y0 Rein s x y).1 - (sisDeflection x0 y0 Rein s x y).1| ≤
      roundings u 7 * |(sisDeflection x0 y0 Rein s x y).1| ∧
    |(A.sisDeflection x0 y0 Rein s x y).2 - (sisDeflection x0 y0 Rein s x y).2| ≤
      roundings u 7 * |(sisDeflection x0 y0 Rein s x y).2| ∧
    |A.sisPotential x0 y0 Rein s x y - sisPotential x0 y0 Rein s x y| ≤
      roundings u 5 * |sisPotential x0 y0 Rein s x y| ∧
    |A.sisConvergence x0 y0 Rein s x y - sisConvergence x0 y0 Rein s x y| ≤
      roundings u 6 * |sisConvergence x0 y0 Rein s x y| := by
  have hR := hA.nearRadius h0 h1 x0 y0 hs x y
  have hpos : √((x - x0) ^ 2 + (y - y0) ^ 2) + s ≠ 0 := (add_pos_of_pos_of_nonneg (radius_pos (sub_ne_zero_or hp)) hs).ne'
  refine ⟨Near.le h0 h1 ?_, Near.le h0 h1 ?_, Near.le h0 h1 ?_, Near.le h0 h1 ?_⟩
  · exact hA.nearDiv h0 h1 (hA.nearMul h0 h1 (Near.refl Rein) (hA.nearSub h0 h1 x x0)) hR hpos
  · exact hA.nearDiv h0 h1 (hA.nearMul h0 h1 (Near.refl Rein) (hA.nearSub h0 h1 y y0)) hR hpos
  · exact hA.nearMul h0 h1 (Near.refl Rein) hR
  · exact hA.nearDiv h0 h1 (hA.nearMul h0 h1 (Near.refl 0.5) (Near.refl Rein)) hR hpos

/-- Point mass: thirteen roundings. -/
theorem C116_point (x0 y0 Rein s x y : ℝ) (hs : 0 ≤ s) (hp : (x, y) ≠ (x0, y0)) :
    |(A.pointDeflection x0 y0 Rein s x y).1 - (pointDeflection x0 y0 Rein s x y).1| ≤
      roundings u 13 * |(pointDeflection x0 y0 Rein s x y).1| ∧
    |(A.pointDeflection x0 y0 Rein s x y).2 - (pointDeflection x0 y0 Rein s x y).2| ≤
      roundings u 13 * |(pointDeflection x0 y0 Rein s x y).2| := by
  have hR := hA.nearSq h0 h1 (hA.nearRadius h0 h1 x0 y0 hs x y)
  have hE := hA.nearSq h0 h1 (Near.refl Rein)
  have hpos : (√((x - x0) ^ 2 + (y - y0) ^ 2) + s) ^ 2 ≠ 0 :=
    (pow_pos (add_pos_of_pos_of_nonneg (radius_pos (sub_ne_zero_or hp)) hs) 2).ne'
  refine ⟨Near.le h0 h1 ?_, Near.le h0 h1 ?_⟩
  · exact hA.nearDiv h0 h1 (hA.nearMul h0 h1 (hA.nearSub h0 h1 x x0) hE) hR hpos
  · exact hA.nearDiv h0 h1 (hA.nearMul h0 h1 (hA.nearSub h0 h1 y y0) hE) hR hpos

/-- Mass sheet: two roundings. -/
theorem C116_sheet (x0 y0 kappa x y : ℝ) :
    |(A.sheetDeflection x0 y0 kappa x y).1 - (sheetDeflection x0 y0 kappa x y).1| ≤
      roundings u 2 * |(sheetDeflection x0 y0 kappa x y).1| ∧
    |(A.sheetDeflection x0 y0 kappa x y).2 - (sheetDeflection x0 y0 kappa x y).2| ≤
      roundings u 2 * |(sheetDeflection x0 y0 kappa x y).2| :=
  ⟨Near.le h0 h1 (hA.nearMul h0 h1 (hA.nearSub h0 h1 x x0) (Near.refl kappa)),
    Near.le h0 h1 (hA.nearMul h0 h1 (hA.nearSub h0 h1 y y0) (Near.refl kappa))⟩

/-- A sum of two computed numbers, one rounding more. -/
theorem add_error {k : ℕ} {a a' c c' S T : ℝ} (ha : |a' - a| ≤ roundings u k * S) (hc : |c' - c| ≤ roundings u k * T)
    (hS : |a| ≤ S) (hT : |c| ≤ T) : |A.add a' c' - (a + c)| ≤ roundings u (k + 1) * (S + T) := by
  have hr := hA.add a' c'
  have hk := roundings_nonneg h0 h1 k
  have hs := roundings_succ h1 k
  have hS0 : 0 ≤ S := (abs_nonneg a).trans hS
  have hT0 : 0 ≤ T := (abs_nonneg c).trans hT
  have e1 : |a' + c' - (a + c)| ≤ roundings u k * (S + T) := by
    rw [show a' + c' - (a + c) = (a' - a) + (c' - c) by ring, mul_add]
    exact (abs_add_le _ _).trans (add_le_add ha hc)
  have e2 : |a' + c'| ≤ (1 + roundings u k) * (S + T) := by
    have := abs_add_le (a' + c' - (a + c)) (a + c)
    rw [sub_add_cancel] at this
    have h3 := abs_add_le a c
    linarith
  have e3 : |A.add a' c' - (a + c)| ≤ |A.add a' c' - (a' + c')| + |a' + c' - (a + c)| := abs_sub_le _ _ _
  have e4 := mul_le_mul_of_nonneg_left e2 h0
  have e5 := mul_le_mul_of_nonneg_right hs (add_nonneg hS0 hT0)
  nlinarith

theorem sub_error {k : ℕ} {a a' c c' S T : ℝ} (ha : |a' - a| ≤ roundings u k * S) (hc : |c' - c| ≤ roundings u k * T)
    (hS : |a| ≤ S) (hT : |c| ≤ T) : |A.sub a' c' - (a - c)| ≤ roundings u (k + 1) * (S + T) := by
  have hr := hA.sub a' c'
  have hk := roundings_nonneg h0 h1 k
  have hs := roundings_succ h1 k
  have hS0 : 0 ≤ S := (abs_nonneg a).trans hS
  have hT0 : 0 ≤ T := (abs_nonneg c).trans hT
  have e1 : |a' - c' - (a - c)| ≤ roundings u k * (S + T) := by
    rw [show a' - c' - (a - c) = (a' - a) - (c' - c) by ring, mul_add]
    exact (abs_sub _ _).trans (add_le_add ha hc)
  have e2 : |a' - c'| ≤ (1 + roundings u k) * (S + T) := by
    have := abs_add_le (a' - c' - (a - c)) (a - c)
    rw [sub_add_cancel] at this
    have h3 := abs_sub a c
    linarith
  have e3 : |A.sub a' c' - (a - c)| ≤ |A.sub a' c' - (a' - c')| + |a' - c' - (a - c)| := abs_sub_le _ _ _
  have e4 := mul_le_mul_of_nonneg_left e2 h0
  have e5 := mul_le_mul_of_nonneg_right hs (add_nonneg hS0 hT0)
  nlinarith

/-- External shear: three roundings of the two terms (which may cancel). -/
theorem C116_shear (x0 y0 g1 g2 x y : ℝ) :
    |(A.shearDeflection x0 y0 g1 g2 x y).1 - (shearDeflection x0 y0 g1 g2 x y).1| ≤
      roundings u 3 * (|g1 * (x - x0)| + |g2 * (y - y0)|) ∧
    |(A.shearDeflection x0 y0 g1 g2 x y).2 - (shearDeflection x0 y0 g1 g2 x y).2| ≤
      roundings u 3 * (|g2 * (x - x0)| + |g1 * (y - y0)|) := by
  have hx := hA.nearSub h0 h1 x x0
  have hy := hA.nearSub h0 h1 y y0
  exact ⟨add_error hA h0 h1 (k := 2) (Near.le h0 h1 (hA.nearMul h0 h1 (Near.refl g1) hx))
      (Near.le h0 h1 (hA.nearMul h0 h1 (Near.refl g2) hy)) le_rfl le_rfl,
    sub_error hA h0 h1 (k := 2) (Near.le h0 h1 (hA.nearMul h0 h1 (Near.refl g2) hx))
      (Near.le h0 h1 (hA.nearMul h0 h1 (Near.refl g1) hy)) le_rfl le_rfl⟩

/-- Ray tracing: a deflection known to `k` roundings gives the source position up to `k + 1` roundings of the image
position and the deflection. -/
theorem C116_raytrace {k : ℕ} {a a' : ℝ} (x : ℝ) (ha : |a' - a| ≤ roundings u k * |a|) :
    |A.raytrace x a' - (x - a)| ≤ roundings u (k + 1) * (|x| + |a|) := by
  refine sub_error hA h0 h1 ?_ ha le_rfl le_rfl
  rw [sub_self, abs_zero]
  exact mul_nonneg (roundings_nonneg h0 h1 k) (abs_nonneg x)

/-- `SinglePlane` with `n` lenses: `n` roundings on top of those of the lenses, relative to the sum of the sizes of the
deflections. -/
theorem C116_singleplane {ι : Type*} (k : ℕ) (f f' : ι → ℝ) (hf : ∀ i, |f' i - f i| ≤ roundings u k * |f i|)
    (lenses : List ι) :
    |A.runningSum (lenses.map f') - (lenses.map f).sum| ≤
      roundings u (k + lenses.length) * (lenses.map fun i => |f i|).sum := by
  have key : ∀ (l : List ι) (j : ℕ) (a a' S : ℝ), k ≤ j → |a' - a| ≤ roundings u j * S → |a| ≤ S →
      |(l.map f').foldl A.add a' - (a + (l.map f).sum)| ≤ roundings u (j + l.length) * (S + (l.map fun i => |f i|).sum) := by
    intro l
    induction l with
    | nil => intro j a a' S _ h _; simpa using h
    | cons i l ih =>
      intro j a a' S hj ha hS
      have h2 : |f' i - f i| ≤ roundings u j * |f i| :=
        (hf i).trans (mul_le_mul_of_nonneg_right (roundings_mono h0 h1 hj) (abs_nonneg _))
      have h3 := add_error hA h0 h1 ha h2 hS le_rfl
      have h4 := ih (j + 1) (a + f i) (A.add a' (f' i)) (S + |f i|) (by omega) h3
        ((abs_add_le _ _).trans (add_le_add hS le_rfl))
      simp only [List.map_cons, List.foldl_cons, List.sum_cons, List.length_cons]
      rw [show j + (l.length + 1) = j + 1 + l.length by ring, ← add_assoc, ← add_assoc]
      exact h4
  have := key lenses k 0 0 0 le_rfl (by simp) (by simp)
  simpa [Arith.runningSum] using this

/-- Adding `n` terms in whatever order: `n - 1` roundings on top of those of the terms. -/
theorem C116_sum {ι : Type*} (k : ℕ) (f f' : ι → ℝ) (hf : ∀ i, |f' i - f i| ≤ roundings u k * |f i|) (t : SumTree ι) :
    |t.eval A f' - (t.terms.map f).sum| ≤ roundings u (k + (t.terms.length - 1)) * (t.terms.map fun i => |f i|).sum := by
  have hlen : ∀ t : SumTree ι, 1 ≤ t.terms.length := by
    intro t
    induction t with
    | leaf i => simp [SumTree.terms]
    | node l r hl hr => simp only [SumTree.terms, List.length_append]; omega
  have habs : ∀ l : List ι, |(l.map f).sum| ≤ (l.map fun i => |f i|).sum := by
    intro l
    induction l with
    | nil => simp
    | cons i l ih =>
      simp only [List.map_cons, List.sum_cons]
      exact (abs_add_le _ _).trans (add_le_add le_rfl ih)
  have hnn : ∀ l : List ι, 0 ≤ (l.map fun i => |f i|).sum := fun l => (abs_nonneg _).trans (habs l)
  induction t with
  | leaf i => simpa [SumTree.eval, SumTree.terms] using hf i
  | node l r hl hr =>
    have h2 := hlen l
    have h3 := hlen r
    simp only [SumTree.eval, SumTree.terms, List.map_append, List.sum_append, List.length_append]
    set j := k + (l.terms.length + r.terms.length - 2) with hj
    rw [show k + (l.terms.length + r.terms.length - 1) = j + 1 by omega]
    refine add_error hA h0 h1 (hl.trans ?_) (hr.trans ?_) (habs _) (habs _)
    · exact mul_le_mul_of_nonneg_right (roundings_mono h0 h1 (by omega)) (hnn _)
    · exact mul_le_mul_of_nonneg_right (roundings_mono h0 h1 (by omega)) (hnn _)

/-- Sub-pixel integration of a brightness that is not negative, with weights that are not negative: as many roundings as
there are sub-pixel points, relative to the result itself, whatever order the library adds in. -/
theorem C116_integrator {ι : Type*} (F w : ι → ℝ) (hF : ∀ i, 0 ≤ F i) (hw : ∀ i, 0 ≤ w i) (t : SumTree ι) :
    |A.integrator t F w - (t.terms.map fun i => F i * w i).sum| ≤
      roundings u t.terms.length * (t.terms.map fun i => F i * w i).sum := by
  have h2 := C116_sum hA h0 h1 1 (fun i => F i * w i) (fun i => A.mul (F i) (w i))
    (fun i => Near.le h0 h1 (hA.nearMul h0 h1 (Near.refl (F i)) (Near.refl (w i)))) t
  have hlen : 1 ≤ t.terms.length := by
    cases t with
    | leaf i => simp [SumTree.terms]
    | node l r =>
      have : ∀ t : SumTree ι, 1 ≤ t.terms.length := by
        intro t
        induction t with
        | leaf i => simp [SumTree.terms]
        | node l r hl hr => simp only [SumTree.terms, List.length_append]; omega
      exact this _
  rw [show 1 + (t.terms.length - 1) = t.terms.length by omega] at h2
  have e : (fun i => |F i * w i|) = fun i => F i * w i := funext fun i => abs_of_nonneg (mul_nonneg (hF i) (hw i))
  rw [e] at h2
  exact h2

/-- PseudoJaffe: the profile is a difference of two numbers below one; each is right to fourteen roundings, so the error
of the difference is absolute, not relative. -/
theorem pjProfile_error (x0 y0 Rc Rs s x y : ℝ) (hs : 0 ≤ s) (hc : 0 < Rc) (hS : 0 < Rs) :
    let R := √((x - x0) ^ 2 + (y - y0) ^ 2) + s
    |A.pjProfile Rc Rs (A.radius x0 y0 s x y) -
        (R / Rc / (1 + √(1 + (R / Rc) ^ 2)) - R / (Rs * (1 + √(1 + (R / Rs) ^ 2))))| ≤
      roundings u 15 * (R / Rc / (1 + √(1 + (R / Rc) ^ 2)) + R / (Rs * (1 + √(1 + (R / Rs) ^ 2)))) ∧
    R / Rc / (1 + √(1 + (R / Rc) ^ 2)) < 1 ∧ R / (Rs * (1 + √(1 + (R / Rs) ^ 2))) < 1 := by
  intro R
  have hR0 : 0 ≤ R := add_nonneg (sqrt_nonneg _) hs
  have hR := hA.nearRadius h0 h1 x0 y0 hs x y
  have hone : ∀ q : ℝ, 1 + √(1 + q ^ 2) ≠ 0 := fun q => (by positivity : 0 < 1 + √(1 + q ^ 2)).ne'
  have hroot : ∀ q : ℝ, 0 < q → Near u 8 (A.add 1 (A.sqrt (A.add 1 (A.sq (A.div (A.radius x0 y0 s x y) q)))))
      (1 + √(1 + (R / q) ^ 2)) := by
    intro q hq
    have h2 := hA.nearSq h0 h1 (hA.nearDiv h0 h1 hR (Near.refl q) hq.ne')
    have h3 := hA.nearAdd h0 h1 zero_le_one (sq_nonneg _) (Near.refl 1) h2 11
    have h4 := hA.nearSqrt (k := 6) h0 h1 (by positivity) h3
    exact hA.nearAdd h0 h1 zero_le_one (sqrt_nonneg _) (Near.refl 1) h4 7
  have ha := hA.nearDiv h0 h1 (hA.nearDiv h0 h1 hR (Near.refl Rc) hc.ne') (hroot Rc hc) (hone _)
  have hb := hA.nearDiv h0 h1 hR (hA.nearMul h0 h1 (Near.refl Rs) (hroot Rs hS)) (mul_ne_zero hS.ne' (hone _))
  have hlt : ∀ z : ℝ, z < 1 + √(1 + z ^ 2) := by
    intro z
    have : z ≤ √(1 + z ^ 2) := le_sqrt_of_sq_le (by linarith)
    linarith
  have pa : 0 ≤ R / Rc / (1 + √(1 + (R / Rc) ^ 2)) := by positivity
  have pb : 0 ≤ R / (Rs * (1 + √(1 + (R / Rs) ^ 2))) := by positivity
  refine ⟨?_, ?_, ?_⟩
  · have ea := Near.le h0 h1 ha
    have eb := Near.le h0 h1 hb
    change |_ - R / Rc / (1 + √(1 + (R / Rc) ^ 2))| ≤ roundings u 14 * |R / Rc / (1 + √(1 + (R / Rc) ^ 2))| at ea
    change |_ - R / (Rs * (1 + √(1 + (R / Rs) ^ 2)))| ≤ roundings u 14 * |R / (Rs * (1 + √(1 + (R / Rs) ^ 2)))| at eb
    rw [abs_of_nonneg pa] at ea
    rw [abs_of_nonneg pb] at eb
    exact sub_error hA h0 h1 ea eb (abs_of_nonneg pa).le (abs_of_nonneg pb).le
  · rw [div_lt_one (by positivity)]
    exact hlt _
  · rw [← div_div, div_lt_one (by positivity)]
    exact hlt _

omit hA h0 h1 in
theorem roundings_add (k l : ℕ) : (1 + roundings u k) * (1 + roundings u l) = 1 + roundings u (k + l) := by
  unfold roundings
  rw [pow_add, mul_inv]
  ring

omit hA in
/-- A factor known to some roundings times a number known to an absolute error. -/
theorem factor_error {k l : ℕ} {a a' c c' S : ℝ} (ha : |a' - a| ≤ roundings u k * S) (hS : |a| ≤ S) (hc : Near u l c' c) :
    |a' * c' - a * c| ≤ roundings u (k + l) * (S * |c|) ∧ |a * c| ≤ S * |c| := by
  have hc' := Near.le h0 h1 hc
  have hS0 : 0 ≤ S := (abs_nonneg a).trans hS
  have hk := roundings_nonneg h0 h1 k
  have hl := roundings_nonneg h0 h1 l
  have e := roundings_add (u := u) k l
  refine ⟨?_, by rw [abs_mul]; exact mul_le_mul_of_nonneg_right hS (abs_nonneg c)⟩
  have h2 : |c'| ≤ (1 + roundings u l) * |c| := by
    have := abs_add_le (c' - c) c
    rw [sub_add_cancel] at this
    linarith
  calc |a' * c' - a * c| = |(a' - a) * c' + a * (c' - c)| := by congr 1; ring
    _ ≤ |(a' - a) * c'| + |a * (c' - c)| := abs_add_le _ _
    _ ≤ roundings u k * S * ((1 + roundings u l) * |c|) + S * (roundings u l * |c|) := by
      rw [abs_mul, abs_mul]
      exact add_le_add (mul_le_mul ha h2 (abs_nonneg _) (mul_nonneg hk hS0)) (mul_le_mul hS hc' (abs_nonneg _) hS0)
    _ = (roundings u k * (1 + roundings u l) + roundings u l) * (S * |c|) := by ring
    _ = _ := by rw [show roundings u (k + l) = roundings u k * (1 + roundings u l) + roundings u l by linarith]

/-- The deflection of a PseudoJaffe is right up to 23 roundings of the two terms of its profile, which partly cancel. -/
theorem C116_pseudo_jaffe (C x0 y0 Rc Rs s x y : ℝ) (hs : 0 ≤ s) (hc : 0 < Rc) (hS : 0 < Rs) (hp : (x, y) ≠ (x0, y0)) :
    let R := √((x - x0) ^ 2 + (y - y0) ^ 2) + s
    let f := R / Rc / (1 + √(1 + (R / Rc) ^ 2))
    let g := R / (Rs * (1 + √(1 + (R / Rs) ^ 2)))
    |(A.pjDeflection C Rc Rs x0 y0 s x y).1 - C * (f - g) * (x - x0) / R| ≤
      roundings u 23 * ((f + g) * |C * (x - x0) / R|) ∧
    |(A.pjDeflection C Rc Rs x0 y0 s x y).2 - C * (f - g) * (y - y0) / R| ≤
      roundings u 23 * ((f + g) * |C * (y - y0) / R|) := by
  intro R f g
  have hR := hA.nearRadius h0 h1 x0 y0 hs x y
  have hpos : R ≠ 0 := (add_pos_of_pos_of_nonneg (radius_pos (sub_ne_zero_or hp)) hs).ne'
  have hR0 : 0 ≤ R := add_nonneg (sqrt_nonneg _) hs
  have hf : 0 ≤ f := by positivity
  have hg : 0 ≤ g := by positivity
  have hfg : |f - g| ≤ f + g := by
    have := abs_sub f g
    rwa [abs_of_nonneg hf, abs_of_nonneg hg] at this
  have hprof := (pjProfile_error hA h0 h1 x0 y0 Rc Rs s x y hs hc hS).1
  have hmain : ∀ d d' : ℝ, Near u 1 d' d → |A.div (A.mul (A.mul C (A.pjProfile Rc Rs (A.radius x0 y0 s x y))) d')
      (A.radius x0 y0 s x y) - C * (f - g) * d / R| ≤ roundings u 23 * ((f + g) * |C * d / R|) := by
    intro d d' hd
    set q := A.pjProfile Rc Rs (A.radius x0 y0 s x y)
    have n1 : Near u 1 (A.mul C q) (C * q) := by simpa using hA.nearMul h0 h1 (Near.refl C) (Near.refl q)
    have n2 := hA.nearMul h0 h1 n1 hd
    have n3 := hA.nearDiv h0 h1 n2 hR hpos
    obtain ⟨t, -, ht, ht2, ht3⟩ := n3.pos_factor h1
    have n4 : Near u 8 (C * d / R * t) (C * d / R) := ⟨t, rfl, ht2, ht3⟩
    have := (factor_error h0 h1 hprof hfg n4).1
    rw [ht]
    rw [show C * q * d / (√((x - x0) ^ 2 + (y - y0) ^ 2) + s) * t = q * (C * d / R * t) by ring,
      show C * (f - g) * d / R = (f - g) * (C * d / R) by ring]
    exact this
  exact ⟨hmain _ _ (hA.nearSub h0 h1 x x0), hmain _ _ (hA.nearSub h0 h1 y y0)⟩

end simple

/-- Without rounding the operation by operation code is the model used everywhere else. -/
theorem C116_exact (x0 y0 Rein s x y : ℝ) (g1 g2 kappa : ℝ) (L : PJaffe) (N : NFW) :
    exactArith.sisDeflection x0 y0 Rein s x y = sisDeflection x0 y0 Rein s x y ∧
    exactArith.pointDeflection x0 y0 Rein s x y = pointDeflection x0 y0 Rein s x y ∧
    exactArith.sheetDeflection x0 y0 kappa x y = sheetDeflection x0 y0 kappa x y ∧
    exactArith.shearDeflection x0 y0 g1 g2 x y = shearDeflection x0 y0 g1 g2 x y ∧
    exactArith.pjDeflection (2 * pjKappa0 L.mass L.Rc L.Rs L.d_l L.sigmacr * L.Rc * L.Rs / (L.Rs - L.Rc)) L.Rc L.Rs L.x0 L.y0
      L.s x y = L.deflection x y ∧
    exactArith.nfwDeflection arccos (16 * π * N.Gc2 * nfwScaleDensity N.rhoc N.c N.Delta * N.rs ^ 3) N.rs N.d_l N.x0 N.y0 N.s
      x y = N.physicalDeflection x y := by
  refine ⟨?_, ?_, ?_, ?_, ?_, ?_⟩ <;>
    simp [exactArith, Arith.sisDeflection, Arith.pointDeflection, Arith.sheetDeflection, Arith.shearDeflection,
      Arith.pjDeflection, Arith.pjProfile, Arith.nfwDeflection, Arith.nfwH, nfwH, Arith.radius, Arith.sq, sisDeflection,
      pointDeflection, sheetDeflection, shearDeflection, PJaffe.deflection, NFW.physicalDeflection, translateRotate, pow_two]

/-! ### NFW near its centre -/

theorem round_eq_of_near {z : ℝ} {n : ℤ} (h : |z - n| < 1 / 2) : round z = n := by
  have h2 := abs_sub_round z
  have h3 : |((round z - n : ℤ) : ℝ)| < 1 := by
    push_cast
    calc _ = |(z - n) - (z - round z)| := by congr 1; ring
      _ ≤ |z - n| + |z - round z| := abs_sub _ _
      _ < 1 := by linarith
  have h4 : |round z - n| < 1 := by exact_mod_cast h3
  have := Int.abs_lt_one_iff.1 h4
  omega

/-- Numbers close to a power of two, of either sign, round to it. -/
theorem flRound_pow (p : ℕ) (k : ℤ) (e v : ℝ) (he : e = 1 ∨ e = -1) (h : |v - e * 2 ^ k| < 2 ^ (k - p) / 4) :
    flRound p v = e * 2 ^ k := by
  have hK : (0 : ℝ) < 2 ^ k := by positivity
  have hp1 : (1 : ℝ) ≤ 2 ^ p := one_le_pow₀ (by norm_num)
  have hsp : (2 : ℝ) ^ (k - p) = 2 ^ k / 2 ^ p := by rw [zpow_sub₀ (by norm_num), zpow_natCast]
  have hle : (2 : ℝ) ^ (k - p) ≤ 2 ^ k := by rw [hsp]; exact div_le_self hK.le hp1
  have hv : |(|v| - 2 ^ k)| < 2 ^ (k - p) / 4 := by
    have h2 := abs_abs_sub_abs_le v (e * 2 ^ k)
    have h3 : |e * 2 ^ k| = 2 ^ k := by
      rcases he with rfl | rfl
      · rw [one_mul, abs_of_pos hK]
      · rw [neg_one_mul, abs_neg, abs_of_pos hK]
    rw [h3] at h2
    exact lt_of_le_of_lt h2 h
  rw [abs_lt] at hv
  have hvpos : 0 < |v| := by linarith
  have hlog : Int.log 2 |v| = k ∨ Int.log 2 |v| = k - 1 := by
    have a1 : k - 1 ≤ Int.log 2 |v| := by
      rw [← Int.zpow_le_iff_le_log (by norm_num) hvpos]
      push_cast
      rw [zpow_sub_one₀ (by norm_num)]
      linarith
    have a2 : Int.log 2 |v| < k + 1 := by
      rw [← Int.lt_zpow_iff_log_lt (by norm_num) hvpos]
      push_cast
      rw [zpow_add_one₀ (by norm_num)]
      linarith
    omega
  obtain ⟨c, hc⟩ : ∃ c : ℤ, (c : ℝ) = e := by
    rcases he with rfl | rfl
    · exact ⟨1, by norm_num⟩
    · exact ⟨-1, by norm_num⟩
  unfold flRound
  rcases hlog with hl | hl
  · rw [hl]
    have hb : (0 : ℝ) < 2 ^ (k - p) := by positivity
    have : round (v / 2 ^ (k - p)) = c * 2 ^ p := by
      apply round_eq_of_near
      push_cast
      rw [hc, show v / 2 ^ (k - p) - e * 2 ^ p = (v - e * 2 ^ k) / 2 ^ (k - p) by rw [hsp]; field_simp, abs_div,
        abs_of_pos hb, div_lt_iff₀ hb]
      linarith
    rw [this]
    push_cast
    rw [hc, hsp]
    field_simp
  · rw [hl]
    have hb : (0 : ℝ) < 2 ^ (k - 1 - p) := by positivity
    have hsp' : (2 : ℝ) ^ (k - 1 - p) = 2 ^ (k - p) / 2 := by
      rw [show k - 1 - (p : ℤ) = k - p - 1 by ring, zpow_sub_one₀ (by norm_num)]
      ring
    have : round (v / 2 ^ (k - 1 - p)) = c * 2 ^ (p + 1) := by
      apply round_eq_of_near
      push_cast
      rw [hc, show v / 2 ^ (k - 1 - p) - e * 2 ^ (p + 1) = (v - e * 2 ^ k) / 2 ^ (k - 1 - p) by
        rw [hsp', hsp, pow_succ]; field_simp, abs_div, abs_of_pos hb, div_lt_iff₀ hb, hsp']
      linarith
    rw [this]
    push_cast
    rw [hc, hsp', hsp, pow_succ]
    field_simp

theorem flRound_zero (p : ℕ) : flRound p 0 = 0 := by simp [flRound]

/-- Roundings shift the logarithm. -/
theorem Near.log {u a b : ℝ} {k : ℕ} (h0 : 0 ≤ u) (h1 : u ≤ 1 / 2) (hb : 0 < b) (h : Near u k a b) :
    |Real.log a - Real.log b| ≤ 2 * k * u := by
  obtain ⟨t, ht, rfl, h2, h3⟩ := h.pos_factor (by linarith)
  have hp : (0 : ℝ) < 1 - u := by linarith
  rw [Real.log_mul hb.ne' ht.ne', add_sub_cancel_left]
  have hl : -(2 * u) ≤ Real.log (1 - u) := by
    have := Real.one_sub_inv_le_log_of_pos hp
    have e : 1 - (1 - u)⁻¹ = -(u / (1 - u)) := by field_simp; ring
    have : u / (1 - u) ≤ 2 * u := by
      rw [div_le_iff₀ hp]
      nlinarith
    linarith
  have e1 : k * Real.log (1 - u) ≤ Real.log t := by
    rw [← Real.log_pow]
    exact Real.log_le_log (pow_pos hp k) h2
  have e2 : Real.log t + k * Real.log (1 - u) ≤ 0 := by
    rw [← Real.log_pow, ← Real.log_mul ht.ne' (pow_pos hp k).ne']
    exact Real.log_nonpos (mul_nonneg ht.le (pow_nonneg hp.le k)) h3
  have hk : (0 : ℝ) ≤ k := Nat.cast_nonneg k
  have := mul_le_mul_of_nonneg_left hl hk
  rw [abs_le]
  constructor <;> nlinarith

theorem arcosh_bounds {z : ℝ} (hz : 2 ≤ z) : Real.log (2 * z) - 1 / z ^ 2 ≤ arcosh z ∧ arcosh z ≤ Real.log (2 * z) := by
  have hz0 : 0 < z := by linarith
  have hi : 0 < 1 / z ^ 2 := by positivity
  have hi1 : 1 / z ^ 2 ≤ 1 / 4 := by
    rw [div_le_div_iff₀ (by positivity) (by norm_num)]
    nlinarith
  have hs1 : √(z ^ 2 - 1) ≤ z := sqrt_le_iff.2 ⟨hz0.le, by linarith⟩
  have hs2 : z - 1 / z ≤ √(z ^ 2 - 1) := by
    apply le_sqrt_of_sq_le
    have : (z - 1 / z) ^ 2 = z ^ 2 - 2 + 1 / z ^ 2 := by field_simp; ring
    linarith
  unfold arcosh
  constructor
  · have h1 : 2 * z * (1 - 1 / z ^ 2 / 2) ≤ z + √(z ^ 2 - 1) := by
      have : 2 * z * (1 - 1 / z ^ 2 / 2) = 2 * z - 1 / z := by field_simp
      linarith
    have h2 := Real.log_le_log (by apply mul_pos <;> linarith) h1
    rw [Real.log_mul (by positivity) (by linarith)] at h2
    have h3 := Real.one_sub_inv_le_log_of_pos (show 0 < 1 - 1 / z ^ 2 / 2 by linarith)
    have h4 : (1 - 1 / z ^ 2 / 2)⁻¹ ≤ 1 + 1 / z ^ 2 := by
      rw [← one_div, div_le_iff₀ (by linarith)]
      nlinarith
    linarith
  · exact Real.log_le_log (by positivity) (by linarith)

/-- In correctly rounded arithmetic the two terms of `_h_nfw` round to the same number and cancel. -/
theorem nfwH_cancels (p k : ℕ) (hk : 8 ≤ k) (arccos : ℝ → ℝ) {r : ℝ} (hr : 0 < r) (hr1 : r ≤ 1 / 4)
    (hr2 : r ^ 2 ≤ 2⁻¹ ^ (p + 1) / 16) (hlog : |Real.log (r / 2) + 2 ^ k| ≤ 32 * 2⁻¹ ^ (p + 1)) :
    (nearestArith p).nfwH arccos r = 0 := by
  have hA := nearestArith_rounds p
  set u : ℝ := 2⁻¹ ^ (p + 1) with hu
  have h0 : 0 < u := by positivity
  have h12 : u ≤ 1 / 2 := by
    rw [hu, pow_succ]
    have : (2⁻¹ : ℝ) ^ p ≤ 1 := pow_le_one₀ (by norm_num) (by norm_num)
    linarith
  have h1 : u < 1 := by linarith
  have hslack : ∀ j : ℕ, (2 : ℝ) ^ ((j : ℤ) - p) / 4 = 2 ^ j * u / 2 := by
    intro j
    rw [zpow_sub₀ (by norm_num), zpow_natCast, zpow_natCast, hu, pow_succ, inv_pow]
    ring
  have hK : (256 : ℝ) ≤ 2 ^ k := by
    calc (256 : ℝ) = 2 ^ 8 := by norm_num
      _ ≤ _ := pow_le_pow_right₀ (by norm_num) hk
  rw [abs_le] at hlog
  -- the logarithm
  have e1 : (nearestArith p).log ((nearestArith p).div r 2) = -1 * 2 ^ k := by
    have hn := hA.nearDiv h0.le h1 (Near.refl r) (Near.refl 2) (by norm_num)
    have hl := hn.log h0.le h12 (by positivity)
    rw [abs_le] at hl
    push_cast at hl
    have := flRound_pow p k (-1) (Real.log ((nearestArith p).div r 2)) (Or.inr rfl) (by
      rw [hslack, zpow_natCast, abs_lt]
      constructor <;> nlinarith)
    rw [zpow_natCast] at this
    exact this
  -- the inverse hyperbolic cosine
  have e2 : (nearestArith p).arccosh ((nearestArith p).div 1 r) = 1 * 2 ^ k := by
    have hn := hA.nearDiv h0.le h1 (Near.refl 1) (Near.refl r) hr.ne'
    have hl := hn.log h0.le h12 (by positivity)
    obtain ⟨t, ht, hte, ht2, -⟩ := hn.pos_factor h1
    set z := (nearestArith p).div 1 r with hz
    have ht3 : 1 / 2 ≤ t := by
      norm_num at ht2
      linarith
    have hzl : 1 / (2 * r) ≤ z := by
      rw [hte, show 1 / (2 * r) = 1 / r * (1 / 2) by field_simp]
      exact mul_le_mul_of_nonneg_left ht3 (by positivity)
    have hz2 : 2 ≤ z := by
      refine le_trans ?_ hzl
      rw [le_div_iff₀ (by positivity)]
      linarith
    have hz0 : 0 < z := by linarith
    obtain ⟨a1, a2⟩ := arcosh_bounds hz2
    have hzz : 1 / z ^ 2 ≤ u / 4 := by
      have : (1 / (2 * r)) ^ 2 ≤ z ^ 2 := pow_le_pow_left₀ (by positivity) hzl 2
      calc 1 / z ^ 2 ≤ 1 / (1 / (2 * r)) ^ 2 := one_div_le_one_div_of_le (by positivity) this
        _ = 4 * r ^ 2 := by field_simp; norm_num
        _ ≤ _ := by linarith
    have hlz : Real.log (2 * z) = -Real.log (r / 2) + (Real.log z - Real.log (1 / r)) := by
      rw [Real.log_mul (by norm_num) hz0.ne', Real.log_div hr.ne' (by norm_num), one_div, Real.log_inv]
      ring
    rw [abs_le] at hl
    push_cast at hl
    have := flRound_pow p k 1 (arcosh z) (Or.inl rfl) (by
      rw [hslack, zpow_natCast, abs_lt]
      constructor <;> nlinarith)
    rw [zpow_natCast] at this
    exact this
  have hone : flRound p 1 = 1 := by
    have := flRound_pow p 0 1 1 (Or.inl rfl) (by simp only [zpow_zero, mul_one, sub_self, abs_zero]; positivity)
    simpa using this
  -- the root is one
  have e3 : (nearestArith p).sqrt ((nearestArith p).sub 1 ((nearestArith p).sq r)) = 1 := by
    have hn := hA.nearSq h0.le h1 (Near.refl r)
    obtain ⟨t, ht, hte, -, ht2⟩ := hn.pos_factor h1
    have ht3 : t ≤ 2 := by
      norm_num at ht2
      nlinarith
    have hs : (nearestArith p).sub 1 ((nearestArith p).sq r) = 1 := by
      have := flRound_pow p 0 1 (1 - (nearestArith p).sq r) (Or.inl rfl) (by
        have := hslack 0
        simp only [Nat.cast_zero, pow_zero] at this
        rw [this, hte, zpow_zero, abs_lt]
        have h4 : 0 ≤ r ^ 2 * t := by positivity
        have h5 : r ^ 2 * t ≤ u / 8 := by nlinarith [sq_nonneg r]
        constructor <;> linarith)
      simpa [nearestArith] using this
    rw [hs]
    simpa [nearestArith] using hone
  have hm : min r (1 - 1e-6) = r := min_eq_left (by norm_num; linarith)
  have hpow : flRound p (2 ^ k) = 2 ^ k := by
    have := flRound_pow p k 1 (2 ^ k) (Or.inl rfl) (by
      rw [zpow_natCast, one_mul, sub_self, abs_zero]
      positivity)
    simpa using this
  have h3 : ¬ r > 1 := by linarith
  have h4 : r < 1 := by linarith
  simp only [Arith.nfwH, hm, if_neg h3, if_pos h4, e1, e2, e3]
  simp only [nearestArith, one_mul, div_one, hpow, neg_one_mul, neg_add_cancel, flRound_zero]

/-- In correctly rounded arithmetic of any precision, arbitrarily close to the centre of an unsoftened NFW lens there are
positions where the computed deflection is zero although the deflection is not. -/
theorem C116_nfw_zero (p : ℕ) (arccos : ℝ → ℝ) (K rs d_l x0 y0 : ℝ) (hK : 0 < K) (hrs : 0 < rs) (hd : 0 < d_l)
    (ε : ℝ) (hε : 0 < ε) :
    ∃ x, x0 < x ∧ x < x0 + ε ∧ (nearestArith p).nfwDeflection arccos K rs d_l x0 y0 0 x y0 = (0, 0) ∧
      0 < (exactArith.nfwDeflection Real.arccos K rs d_l x0 y0 0 x y0).1 := by
  have hA := nearestArith_rounds p
  have harc := arcsecToRad_pos
  set u : ℝ := 2⁻¹ ^ (p + 1) with hu
  have h0 : 0 < u := by positivity
  have h12 : u ≤ 1 / 2 := by
    rw [hu, pow_succ]
    have : (2⁻¹ : ℝ) ^ p ≤ 1 := pow_le_one₀ (by norm_num) (by norm_num)
    linarith
  have h1 : u < 1 := by linarith
  -- a radius small enough
  have hlim : Filter.Tendsto (fun k : ℕ => 2 * Real.exp (-2 ^ k)) Filter.atTop (nhds 0) := by
    have h2 : Filter.Tendsto (fun k : ℕ => (2 : ℝ) ^ k) Filter.atTop Filter.atTop := tendsto_pow_atTop_atTop_of_one_lt (by norm_num)
    have h3 := (Real.tendsto_exp_neg_atTop_nhds_zero.comp h2).const_mul 2
    simpa using h3
  have hδ : 0 < min (ε * d_l * arcsecToRad / rs) (u / 4096) := by positivity
  obtain ⟨k, hk, hk8⟩ := ((hlim.eventually (gt_mem_nhds hδ)).and (Filter.eventually_ge_atTop 8)).exists
  rw [lt_min_iff] at hk
  set r : ℝ := 2 * Real.exp (-2 ^ k) with hr
  have hr0 : 0 < r := by positivity
  set d : ℝ := r * rs / (d_l * arcsecToRad) with hdd
  have hd0 : 0 < d := by positivity
  have hre : d_l * d * arcsecToRad / rs = r := by rw [hdd]; field_simp
  refine ⟨x0 + d, by linarith, ?_, ?_, ?_⟩
  · have : d < ε := by
      rw [hdd, div_lt_iff₀ (by positivity)]
      have := hk.1
      rw [lt_div_iff₀ hrs] at this
      linarith
    linarith
  · have hR := hA.nearRadius h0.le h1 x0 y0 (s := 0) le_rfl (x0 + d) y0
    rw [add_sub_cancel_left, sub_self, zero_pow two_ne_zero, add_zero, add_zero, sqrt_sq hd0.le] at hR
    have hn := hA.nearDiv h0.le h1 (hA.nearMul h0.le h1 (hA.nearMul h0.le h1 (Near.refl d_l) hR) (Near.refl arcsecToRad))
      (Near.refl rs) hrs.ne'
    rw [hre] at hn
    have hl := hn.log h0.le h12 hr0
    obtain ⟨t, ht, hte, -, ht2⟩ := hn.pos_factor h1
    set r' := (nearestArith p).div ((nearestArith p).mul ((nearestArith p).mul d_l ((nearestArith p).radius x0 y0 0 (x0 + d) y0))
      arcsecToRad) rs with hr'
    have hr'0 : 0 < r' := by rw [hte]; positivity
    have ht3 : t ≤ 2 ^ 7 := by
      have hq : (2⁻¹ : ℝ) ^ 7 ≤ (1 - u) ^ 7 := pow_le_pow_left₀ (by norm_num) (by linarith) 7
      have := mul_le_mul_of_nonneg_left hq ht.le
      norm_num at this ht2 ⊢
      linarith
    have hr'1 : r' ≤ u / 32 := by
      rw [hte]
      have := hk.2
      nlinarith
    have hz := nfwH_cancels p k hk8 arccos hr'0 (by linarith) (by rw [← hu]; nlinarith) (by
      have e : Real.log (r' / 2) + 2 ^ k = Real.log r' - Real.log r := by
        rw [hr, Real.log_mul (by norm_num) (Real.exp_pos _).ne', Real.log_exp, Real.log_div hr'0.ne' (by norm_num)]
        ring
      rw [e, ← hu]
      norm_num at hl
      linarith)
    simp only [Arith.nfwDeflection, ← hr', hz]
    simp [nearestArith, flRound_zero]
  · have hpos := nfwH_pos hr0
    have hrad := radToArcsec_pos
    have e : exactArith.radius x0 y0 0 (x0 + d) y0 = d := by
      simp [exactArith, Arith.radius, Arith.sq, ← pow_two, sqrt_sq hd0.le]
    have eh : exactArith.nfwH Real.arccos r = nfwH r := by
      simp [exactArith, Arith.nfwH, nfwH, Arith.sq, pow_two]
    simp only [Arith.nfwDeflection, e]
    simp only [show exactArith.div (exactArith.mul (exactArith.mul d_l d) arcsecToRad) rs = r from hre, eh]
    simp only [exactArith, add_sub_cancel_left]
    positivity

/-- The claim for an unsoftened NFW lens: some number of roundings bounds the relative error of its deflection in every
precision and at every position. -/
def C116_nfw_statement : Prop :=
  ∀ K rs d_l x0 y0 : ℝ, 0 < K → 0 < rs → 0 < d_l → ∃ n : ℕ, ∀ (p : ℕ) (x y : ℝ), (x, y) ≠ (x0, y0) →
    |((nearestArith p).nfwDeflection (fun a => flRound p (Real.arccos a)) K rs d_l x0 y0 0 x y).1 -
        (exactArith.nfwDeflection Real.arccos K rs d_l x0 y0 0 x y).1| ≤
      roundings (2⁻¹ ^ (p + 1)) n * |(exactArith.nfwDeflection Real.arccos K rs d_l x0 y0 0 x y).1|

theorem C116_nfw_fails : ¬ C116_nfw_statement := by
  intro h
  obtain ⟨n, hn⟩ := h 1 1 1 0 0 one_pos one_pos one_pos
  have hlim : Filter.Tendsto (fun p : ℕ => (n : ℝ) * 2⁻¹ ^ (p + 1)) Filter.atTop (nhds 0) := by
    have := ((tendsto_pow_atTop_nhds_zero_of_lt_one (by norm_num : (0 : ℝ) ≤ 2⁻¹) (by norm_num)).comp
      (Filter.tendsto_add_atTop_nat 1)).const_mul (n : ℝ)
    simpa using this
  obtain ⟨p, hp⟩ := (hlim.eventually (gt_mem_nhds (by norm_num : (0 : ℝ) < 1 / 2))).exists
  obtain ⟨x, hx, -, hz, hpos⟩ := C116_nfw_zero p (fun a => flRound p (Real.arccos a)) 1 1 1 0 0 one_pos one_pos one_pos 1 one_pos
  have h2 := hn p x 0 (by simpa using hx.ne')
  rw [hz] at h2
  have h3 := roundings_le (u := 2⁻¹ ^ (p + 1)) (by positivity) n (by linarith)
  have h4 : (n : ℝ) * 2⁻¹ ^ (p + 1) / (1 - n * 2⁻¹ ^ (p + 1)) < 1 := by
    rw [div_lt_one (by linarith)]
    linarith
  rw [zero_sub, abs_neg, abs_of_pos hpos] at h2
  nlinarith

/-- An arithmetic that is exact but for a logarithm too large by a fraction `u`. -/
noncomputable def logArith (u : ℝ) : Arith := { exactArith with log := fun a => (1 + u) * Real.log a }

/-- However small the rounding error of one operation, the error it leaves in the deflection profile `h(r) / r` of an NFW
lens has no bound. -/
theorem C116_nfw_unbounded (u : ℝ) (hu : 0 < u) :
    (logArith u).Rounds u ∧ ∀ B : ℝ, ∃ r, 0 < r ∧ r < 1 ∧ B < |(logArith u).nfwH Real.arccos r / r - nfwH r / r| := by
  refine ⟨{ exactArith_rounds hu.le with log := ?_ }, ?_⟩
  · intro a _
    rw [show (logArith u).log a - Real.log a = u * Real.log a by simp only [logArith]; ring, abs_mul, abs_of_pos hu]
  · intro B
    refine ⟨min (1 / 2) (u / (|B| + 1)), by positivity, lt_of_le_of_lt (min_le_left _ _) (by norm_num), ?_⟩
    set r := min (1 / 2 : ℝ) (u / (|B| + 1)) with hr
    have hr0 : 0 < r := by positivity
    have hr1 : r ≤ 1 / 2 := min_le_left _ _
    have hr2 : r ≤ u / (|B| + 1) := min_le_right _ _
    have e : (logArith u).nfwH Real.arccos r / r - nfwH r / r = u * Real.log (r / 2) / r := by
      simp only [logArith, exactArith, Arith.nfwH, nfwH, Arith.sq, ← pow_two]
      ring
    have hl : 1 ≤ -Real.log (r / 2) := by
      have : Real.log (r / 2) ≤ Real.log (Real.exp (-1)) := by
        apply Real.log_le_log (by positivity)
        have h2 := Real.exp_one_lt_d9
        rw [Real.exp_neg, ← one_div, le_div_iff₀ (Real.exp_pos 1)]
        nlinarith
      rw [Real.log_exp] at this
      linarith
    rw [e, abs_div, abs_mul, abs_of_pos hu, abs_of_pos hr0, abs_of_neg (by linarith), lt_div_iff₀ hr0]
    rw [le_div_iff₀ (by positivity)] at hr2
    have := le_abs_self B
    nlinarith

/-- Double precision: a relative error of at most eight units of `2^-53` for the SIS deflection. -/
example (x0 y0 Rein x y : ℝ) (hp : (x, y) ≠ (x0, y0)) :
    |((nearestArith 52).sisDeflection x0 y0 Rein 0 x y).1 - (sisDeflection x0 y0 Rein 0 x y).1| ≤
      8 * 2⁻¹ ^ 53 * |(sisDeflection x0 y0 Rein 0 x y).1| := by
  refine (C116_sis (nearestArith_rounds 52) (by positivity) (by norm_num) x0 y0 Rein 0 x y le_rfl hp).1.trans ?_
  refine mul_le_mul_of_nonneg_right ((roundings_le (by positivity) 7 (by norm_num)).trans ?_) (abs_nonneg _)
  norm_num

/-- Single precision, four sub-pixel points added as `((a + b) + (c + d))`. -/
example (F w : Fin 4 → ℝ) (hF : ∀ i, 0 ≤ F i) (hw : ∀ i, 0 ≤ w i) :=
  C116_integrator (nearestArith_rounds 23) (by positivity) (by norm_num) F w hF hw
    (.node (.node (.leaf 0) (.leaf 1)) (.node (.leaf 2) (.leaf 3)))

example (ε : ℝ) (hε : 0 < ε) := C116_nfw_zero 52 Real.arccos 1 1 1 0 0 one_pos one_pos one_pos ε hε

/-- Three bits: 33/32 rounds to 1. -/
example : flRound 2 (33 / 32) = 1 := by
  have := flRound_pow 2 0 1 (33 / 32) (Or.inl rfl) (by norm_num [abs_of_pos])
  simpa using this

end Caustics
