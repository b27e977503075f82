import Verif.Model.Grid
import Mathlib.Tactic.FieldSimp
import Mathlib.Tactic.Ring
import Mathlib.Tactic.Linarith
import Mathlib.Tactic.NormNum
import Mathlib.Tactic.LinearCombination
import Mathlib.Tactic.IntervalCases
import Mathlib.Data.Rat.Defs
import Mathlib.Analysis.SpecialFunctions.Integrals.Basic
import Mathlib.Algebra.Polynomial.Eval.Degree
import Mathlib.Topology.Algebra.Polynomial

/-! C06 pixel grids, C07 pixel quadrature. -/

namespace Caustics

section C06
variable {K : Type*} [Field K] [CharZero K]

private theorem axis_value (ps : K) (n : ℕ) (i : ℕ) (hi : i < n) :
    ((linspace (-1 : K) 1 n).map fun v => v * ps * ((n : K) - 1) / 2)[i]?
      = some (((i : K) - ((n : K) - 1) / 2) * ps) := by
  simp only [linspace, List.map_map, List.getElem?_map, List.getElem?_range hi, Option.map_some,
    Option.some.injEq, Function.comp]
  by_cases h : n = 1
  · subst h
    have : i = 0 := by omega
    subst this
    simp
  · have hn : (n : K) - 1 ≠ 0 := by
      intro h0
      apply h
      exact_mod_cast (sub_eq_zero.mp h0)
    rw [if_neg h]
    field_simp
    ring

/-- C06: shape, and every entry: column `j`, row `i` holds
`((j - (nx-1)/2)·pixelscale, (i - (ny-1)/2)·pixelscale)`. -/
theorem C06_entries (ps : K) (nx : ℕ) (ny : Option ℕ) :
    let my := ny.getD nx
    let X := (meshgrid ps nx ny).1
    let Y := (meshgrid ps nx ny).2
    X.length = my ∧ Y.length = my ∧ (∀ r ∈ X, r.length = nx) ∧ (∀ r ∈ Y, r.length = nx) ∧
    ∀ i j, i < my → j < nx →
      (X[i]?.bind (·[j]?)) = some (((j : K) - ((nx : K) - 1) / 2) * ps) ∧
      (Y[i]?.bind (·[j]?)) = some (((i : K) - ((my : K) - 1) / 2) * ps) := by
  intro my X Y
  have hlen : ∀ n : ℕ, (linspace (-1 : K) 1 n).length = n := by
    intro n; simp [linspace]
  refine ⟨by simp [X, meshgrid, meshgridXY, hlen, my], by simp [Y, meshgrid, meshgridXY, hlen, my],
    ?_, ?_, ?_⟩
  · intro r hr
    simp only [X, meshgrid, meshgridXY, List.mem_map] at hr
    obtain ⟨_, _, rfl⟩ := hr
    simp [hlen]
  · intro r hr
    simp only [Y, meshgrid, meshgridXY, List.mem_map] at hr
    obtain ⟨_, _, rfl⟩ := hr
    simp [hlen]
  · intro i j hi hj
    have hx := axis_value ps nx j hj
    have hy := axis_value ps my i hi
    constructor
    · simp only [X, meshgrid, meshgridXY, List.getElem?_map]
      rw [List.getElem?_map] at hy
      cases h : (linspace (-1 : K) 1 my)[i]? with
      | none => rw [h] at hy; simp at hy
      | some v => simpa [my, h] using hx
    · simp only [Y, meshgrid, meshgridXY]
      rw [List.getElem?_map, hy]
      simp only [Option.map_some, Option.bind_some, List.getElem?_map]
      rw [List.getElem?_map] at hx
      cases h : (linspace (-1 : K) 1 nx)[j]? with
      | none => rw [h] at hx; simp at hx
      | some v => rfl

/-- C06: neighbouring samples differ by one pixelscale along one axis and not at all along the
other. -/
theorem C06_spacing (ps : K) (nx : ℕ) (ny : Option ℕ) (i j : ℕ) (hi : i < ny.getD nx) (hj : j < nx)
    (x y : K) (hx : ((meshgrid ps nx ny).1[i]?.bind (·[j]?)) = some x)
    (hy : ((meshgrid ps nx ny).2[i]?.bind (·[j]?)) = some y) :
    (j + 1 < nx → ((meshgrid ps nx ny).1[i]?.bind (·[j + 1]?)) = some (x + ps) ∧
      ((meshgrid ps nx ny).2[i]?.bind (·[j + 1]?)) = some y) ∧
    (i + 1 < ny.getD nx → ((meshgrid ps nx ny).1[i + 1]?.bind (·[j]?)) = some x ∧
      ((meshgrid ps nx ny).2[i + 1]?.bind (·[j]?)) = some (y + ps)) := by
  obtain ⟨_, _, _, _, h⟩ := C06_entries ps nx ny
  have h0 := h i j hi hj
  rw [h0.1] at hx
  rw [h0.2] at hy
  simp only [Option.some.injEq] at hx hy
  constructor
  · intro hj1
    have h1 := h i (j + 1) hi hj1
    rw [h1.1, h1.2, ← hx, ← hy]
    refine ⟨?_, rfl⟩
    push_cast
    congr 1
    ring
  · intro hi1
    have h1 := h (i + 1) j hi1 hj
    rw [h1.1, h1.2, ← hx, ← hy]
    refine ⟨rfl, ?_⟩
    push_cast
    congr 1
    ring

/-- C06: the grid is centred: the sample mirrored through the array centre has the opposite
position. -/
theorem C06_centred (ps : K) (nx : ℕ) (ny : Option ℕ) (i j : ℕ) (hi : i < ny.getD nx) (hj : j < nx)
    (x y : K) (hx : ((meshgrid ps nx ny).1[i]?.bind (·[j]?)) = some x)
    (hy : ((meshgrid ps nx ny).2[i]?.bind (·[j]?)) = some y) :
    ((meshgrid ps nx ny).1[ny.getD nx - 1 - i]?.bind (·[nx - 1 - j]?)) = some (-x) ∧
    ((meshgrid ps nx ny).2[ny.getD nx - 1 - i]?.bind (·[nx - 1 - j]?)) = some (-y) := by
  obtain ⟨_, _, _, _, h⟩ := C06_entries ps nx ny
  have h0 := h i j hi hj
  rw [h0.1] at hx
  rw [h0.2] at hy
  simp only [Option.some.injEq] at hx hy
  have h1 := h (ny.getD nx - 1 - i) (nx - 1 - j) (by omega) (by omega)
  have e1 : ((nx - 1 - j : ℕ) : K) = (nx : K) - 1 - j := by
    rw [Nat.cast_sub (by omega), Nat.cast_sub (by omega), Nat.cast_one]
  have e2 : ((ny.getD nx - 1 - i : ℕ) : K) = (ny.getD nx : K) - 1 - i := by
    rw [Nat.cast_sub (by omega), Nat.cast_sub (by omega), Nat.cast_one]
  rw [h1.1, h1.2, ← hx, ← hy, e1, e2]
  constructor <;> congr 1 <;> ring

/-- A 3×2 grid. -/
example : meshgrid (2 : ℚ) 3 (some 2) =
    ([[-2, 0, 2], [-2, 0, 2]], [[-1, -1, -1], [1, 1, 1]]) := by decide +kernel

end C06

section C07

/-- A one-dimensional rule integrates `t^k` over `[-1, 1]` exactly for every `k ≤ d`. -/
def ExactTo {K : Type*} [Field K] (rule : List (K × K)) (d : ℕ) : Prop :=
  ∀ k ≤ d, (rule.map fun r => r.2 * r.1 ^ k).sum = (1 - (-1) ^ (k + 1)) / ((k : K) + 1)

section field
variable {K : Type*} [Field K]

private theorem zip_flatten {A B C D : Type*} (l m : List A) (f : A → A → B) (g : A → A → C)
    (h : A → A → D) :
    List.zip (l.map fun i => m.map fun j => f i j).flatten
      (List.zip (l.map fun i => m.map fun j => g i j).flatten
        (l.map fun i => m.map fun j => h i j).flatten)
    = (l.map fun i => m.map fun j => (f i j, g i j, h i j)).flatten := by
  induction l with
  | nil => rfl
  | cons a l ih =>
    simp only [List.map_cons, List.flatten_cons]
    rw [List.zip_append (by simp), List.zip_append (by simp), ih]
    congr 1
    simp [List.zip_map', List.zip_map]

private theorem quadTable_eq (rule : List (K × K)) (p : K) :
    quadTable rule p = (rule.map fun r => rule.map fun s =>
      (p * s.1 / 2, p * r.1 / 2, r.2 * s.2 / 4)).flatten := by
  rw [← zip_flatten rule rule (fun _ s => p * s.1 / 2) (fun r _ => p * r.1 / 2)
    (fun r s => r.2 * s.2 / 4)]
  simp [quadTable, meshgridXY, List.map_map, Function.comp_def]

private theorem sum_flatten_map {A B : Type*} [AddCommMonoid B] (l : List A) (f : A → List B) :
    (l.map f).flatten.sum = (l.map fun a => (f a).sum).sum := by
  induction l with
  | nil => rfl
  | cons a l ih => simp [ih]

/-- The integrator as the weighted double sum over the rule. -/
theorem quad_eq_sum (rule : List (K × K)) (F : K → K → K) (p X Y : K) :
    quad rule F p X Y = (rule.map fun r => (rule.map fun s =>
      F (X + p * s.1 / 2) (Y + p * r.1 / 2) * (r.2 * s.2 / 4)).sum).sum := by
  have h : quad rule F p X Y
      = ((quadGrid rule p X Y).map fun t => F t.1 t.2.1 * t.2.2).sum := by
    simp [quad, quadIntegrate, List.zipWith_map_left, List.zipWith_map_right, List.zipWith_self]
  rw [h, quadGrid, quadTable_eq, ← sum_flatten_map]
  simp only [List.map_flatten, List.map_map, Function.comp_def]

private theorem sum_mul_left' {A : Type*} (l : List A) (f : A → K) (c : K) :
    (l.map fun a => c * f a).sum = c * (l.map f).sum :=
  List.sum_map_mul_left l f c

/-- Separable integrands. -/
theorem quad_separable (rule : List (K × K)) (f g : K → K) (p X Y : K) :
    quad rule (fun x y => f x * g y) p X Y
      = ((rule.map fun s => s.2 * f (X + p * s.1 / 2)).sum / 2)
        * ((rule.map fun r => r.2 * g (Y + p * r.1 / 2)).sum / 2) := by
  rw [quad_eq_sum]
  have : ∀ r : K × K, (rule.map fun s =>
      f (X + p * s.1 / 2) * g (Y + p * r.1 / 2) * (r.2 * s.2 / 4)).sum
      = ((rule.map fun s => s.2 * f (X + p * s.1 / 2)).sum / 4)
        * (r.2 * g (Y + p * r.1 / 2)) := by
    intro r
    have e : ((rule.map fun s => s.2 * f (X + p * s.1 / 2)).sum / 4) * (r.2 * g (Y + p * r.1 / 2))
        = (r.2 * g (Y + p * r.1 / 2) / 4) * (rule.map fun s => s.2 * f (X + p * s.1 / 2)).sum := by
      ring
    rw [e, ← sum_mul_left']
    congr 1
    apply List.map_congr_left
    intro s _
    ring
  simp only [this]
  rw [sum_mul_left']
  by_cases h2 : (2 : K) = 0
  · have h4 : (4 : K) = 0 := by linear_combination 2 * h2
    simp [h2, h4]
  · have h4 : (4 : K) = 2 * 2 := by norm_num
    rw [h4]; field_simp

/-- Linearity in the integrand. -/
theorem quad_add (rule : List (K × K)) (F G : K → K → K) (p X Y : K) :
    quad rule (fun x y => F x y + G x y) p X Y = quad rule F p X Y + quad rule G p X Y := by
  simp only [quad_eq_sum, ← List.sum_map_add, add_mul]

theorem quad_smul (rule : List (K × K)) (F : K → K → K) (c p X Y : K) :
    quad rule (fun x y => c * F x y) p X Y = c * quad rule F p X Y := by
  simp only [quad_eq_sum, ← sum_mul_left', mul_assoc]

end field

section ordered
variable {K : Type*} [Field K] [CharZero K]

/-- C07: the sub-pixel weights sum to one. -/
theorem C07_weights_sum (rule : List (K × K)) (hw : (rule.map Prod.snd).sum = 2) (p X Y : K) :
    ((quadGrid rule p X Y).map fun t => t.2.2).sum = 1 := by
  rw [quadGrid, quadTable_eq]
  simp only [List.map_flatten, List.map_map, Function.comp_def]
  rw [sum_flatten_map]
  have : ∀ r : K × K, (rule.map fun s => r.2 * s.2 / 4).sum = 1 / 2 * r.2 := by
    intro r
    have : ∀ s : K × K, r.2 * s.2 / 4 = r.2 / 4 * s.2 := fun s => by ring
    simp only [this]
    rw [sum_mul_left', show (rule.map fun s => s.2) = rule.map Prod.snd from rfl, hw]
    ring
  simp only [this]
  rw [sum_mul_left', show (rule.map fun s => s.2) = rule.map Prod.snd from rfl, hw]
  norm_num

/-- C07: for every rule whose weights sum to two and whose first moment vanishes (all
Gauss-Legendre rules), quadrature of an affine brightness returns its value at the pixel centre,
for every pixel position and size. -/
theorem C07_affine (rule : List (K × K)) (hw : (rule.map Prod.snd).sum = 2)
    (hm : (rule.map fun r => r.2 * r.1).sum = 0) (c a b p X Y : K) :
    quad rule (fun x y => c + a * x + b * y) p X Y = c + a * X + b * Y := by
  have hx : ∀ X : K, (rule.map fun s => s.2 * (X + p * s.1 / 2)).sum = 2 * X := by
    intro X
    have : ∀ s : K × K, s.2 * (X + p * s.1 / 2) = X * s.2 + p / 2 * (s.2 * s.1) := fun s => by ring
    simp only [this]
    rw [List.sum_map_add, sum_mul_left', sum_mul_left', hm,
      show (rule.map fun s => s.2) = rule.map Prod.snd from rfl, hw]
    ring
  have q1 : quad rule (fun _ _ => 1) p X Y = 1 := by
    have := quad_separable rule (fun _ => 1) (fun _ => 1) p X Y
    simp only [mul_one] at this
    rw [this, show (rule.map fun s => s.2) = rule.map Prod.snd from rfl, hw]
    norm_num
  have q2 : quad rule (fun x _ => x) p X Y = X := by
    have := quad_separable rule (fun x => x) (fun _ => 1) p X Y
    simp only [mul_one] at this
    rw [this, hx, show (rule.map fun s => s.2) = rule.map Prod.snd from rfl, hw]
    field_simp
  have q3 : quad rule (fun _ y => y) p X Y = Y := by
    have := quad_separable rule (fun _ => 1) (fun y => y) p X Y
    simp only [mul_one, one_mul] at this
    rw [this, hx, show (rule.map fun s => s.2) = rule.map Prod.snd from rfl, hw]
    field_simp
  have e : quad rule (fun x y => c + a * x + b * y) p X Y
      = quad rule (fun x y => (c * 1 + a * x) + b * y) p X Y := by simp only [mul_one]
  rw [e, quad_add rule (fun x _ => c * 1 + a * x) (fun _ y => b * y),
    quad_add rule (fun _ _ => c * 1) (fun x _ => a * x), quad_smul rule (fun _ _ => 1),
    quad_smul rule (fun x _ => x), quad_smul rule (fun _ y => y), q1, q2, q3, mul_one]

/-- C07: sub-pixel samples come in pairs mirrored through the pixel centre with equal weights, for
every symmetric rule (nodes listed in increasing order, as `roots_legendre` does). -/
theorem C07_symmetric (rule : List (K × K)) (hs : rule.reverse = rule.map fun r => (-r.1, r.2))
    (p X Y : K) :
    (quadGrid rule p X Y).reverse
      = (quadGrid rule p X Y).map fun t => (2 * X - t.1, 2 * Y - t.2.1, t.2.2) := by
  have h1 : (quadTable rule p).reverse
      = (quadTable rule p).map fun t => (-t.1, -t.2.1, t.2.2) := by
    simp only [quadTable_eq]
    rw [List.reverse_flatten]
    simp only [← List.map_reverse, List.map_map, Function.comp_def]
    rw [hs]
    simp only [List.map_map, Function.comp_def, hs, List.map_flatten]
    congr 1
    apply List.map_congr_left
    intro r _
    apply List.map_congr_left
    intro s _
    simp only [Prod.mk.injEq, mul_neg, neg_div, and_self]
  simp only [quadGrid]
  rw [← List.map_reverse, h1]
  simp only [List.map_map, Function.comp_def]
  apply List.map_congr_left
  intro t _
  simp only [Prod.mk.injEq, and_true]
  constructor <;> ring

end ordered

/-- C07: with non-negative weights the pixel value lies between any bounds on the sampled
brightness. -/
theorem C07_bounded {K : Type*} [Field K] [LinearOrder K] [IsStrictOrderedRing K]
    (rule : List (K × K)) (hw : (rule.map Prod.snd).sum = 2)
    (hpos : ∀ r ∈ rule, 0 ≤ r.2) (F : K → K → K) (p X Y lo hi : K)
    (hb : ∀ t ∈ quadGrid rule p X Y, lo ≤ F t.1 t.2.1 ∧ F t.1 t.2.1 ≤ hi) :
    lo ≤ quad rule F p X Y ∧ quad rule F p X Y ≤ hi := by
  have hq : quad rule F p X Y
      = ((quadGrid rule p X Y).map fun t => F t.1 t.2.1 * t.2.2).sum := by
    simp [quad, quadIntegrate, List.zipWith_map_left, List.zipWith_map_right, List.zipWith_self]
  have hone := C07_weights_sum rule hw p X Y
  have hnn : ∀ t ∈ quadGrid rule p X Y, 0 ≤ t.2.2 := by
    intro t ht
    simp only [quadGrid, quadTable_eq, List.mem_map, List.mem_flatten] at ht
    obtain ⟨t', ⟨l, ⟨r, hr, rfl⟩, ht'⟩, rfl⟩ := ht
    simp only [List.mem_map] at ht'
    obtain ⟨s, hs, rfl⟩ := ht'
    have := mul_nonneg (hpos r hr) (hpos s hs)
    simp only
    positivity
  rw [hq]
  generalize quadGrid rule p X Y = g at *
  have key : ∀ c : K, (g.map fun t => c * t.2.2).sum = c := by
    intro c; rw [sum_mul_left', hone, mul_one]
  constructor
  · rw [← key lo]
    apply List.sum_le_sum
    intro t ht
    exact mul_le_mul_of_nonneg_right (hb t ht).1 (hnn t ht)
  · rw [← key hi]
    apply List.sum_le_sum
    intro t ht
    exact mul_le_mul_of_nonneg_right (hb t ht).2 (hnn t ht)

open Polynomial in
private theorem rule_poly (rule : List (ℝ × ℝ)) (d : ℕ) (h : ExactTo rule d) (P : ℝ[X])
    (hP : P.natDegree ≤ d) :
    (rule.map fun r => r.2 * P.eval r.1).sum = ∫ t in (-1 : ℝ)..1, P.eval t := by
  have hev : ∀ t : ℝ, P.eval t = ∑ k ∈ Finset.range (d + 1), P.coeff k * t ^ k := by
    intro t; exact Polynomial.eval_eq_sum_range' (Nat.lt_succ_of_le hP) t
  simp only [hev]
  rw [intervalIntegral.integral_finset_sum
    (fun k _ => (Continuous.intervalIntegrable (by fun_prop) _ _))]
  have : (rule.map fun r => r.2 * ∑ k ∈ Finset.range (d + 1), P.coeff k * r.1 ^ k).sum
      = ∑ k ∈ Finset.range (d + 1), P.coeff k * (rule.map fun r => r.2 * r.1 ^ k).sum := by
    clear h
    induction rule with
    | nil => simp
    | cons r l ih =>
      simp only [List.map_cons, List.sum_cons, mul_add, Finset.sum_add_distrib, ih]
      congr 1
      rw [Finset.mul_sum]
      apply Finset.sum_congr rfl
      intro k _
      ring
  rw [this]
  apply Finset.sum_congr rfl
  intro k hk
  rw [h k (by simpa [Nat.lt_succ_iff] using hk), intervalIntegral.integral_const_mul,
    integral_pow, one_pow]

open Polynomial in
private theorem rule_average (rule : List (ℝ × ℝ)) (d : ℕ) (h : ExactTo rule d) (P : ℝ[X])
    (hP : P.natDegree ≤ d) (p c : ℝ) (hp : p ≠ 0) :
    (rule.map fun r => r.2 * P.eval (c + p * r.1 / 2)).sum / 2
      = (1 / p) * ∫ t in (c - p / 2)..(c + p / 2), P.eval t := by
  have hQ : (P.comp (C c + C (p / 2) * X)).natDegree ≤ d := by
    refine le_trans natDegree_comp_le ?_
    have : (C c + C (p / 2) * X : ℝ[X]).natDegree ≤ 1 := by
      rw [add_comm]; exact natDegree_linear_le
    calc P.natDegree * _ ≤ P.natDegree * 1 := Nat.mul_le_mul_left _ this
      _ ≤ d := by simpa using hP
  have hr := rule_poly rule d h _ hQ
  simp only [eval_comp, eval_add, eval_mul, eval_C, eval_X] at hr
  have e : ∀ t : ℝ, c + p * t / 2 = c + p / 2 * t := fun t => by ring
  simp only [e]
  rw [hr]
  have := intervalIntegral.integral_comp_add_mul (f := fun t => P.eval t) (a := -1) (b := 1)
    (c := p / 2) (by positivity) c
  rw [this]
  simp only [smul_eq_mul]
  rw [show c + p / 2 * -1 = c - p / 2 by ring, show c + p / 2 * 1 = c + p / 2 by ring]
  field_simp

open Polynomial in
/-- C07: a rule exact to degree `d` makes the pixel value the exact average over the pixel of every
brightness that is a finite sum of products `f(x)·g(y)` of polynomials of degree at most `d`. -/
theorem C07_polynomial (rule : List (ℝ × ℝ)) (d : ℕ) (h : ExactTo rule d)
    (terms : List (ℝ[X] × ℝ[X]))
    (hdeg : ∀ t ∈ terms, t.1.natDegree ≤ d ∧ t.2.natDegree ≤ d) (p X Y : ℝ) (hp : p ≠ 0) :
    quad rule (fun x y => (terms.map fun t => t.1.eval x * t.2.eval y).sum) p X Y
      = (1 / p ^ 2) * ∫ y in (Y - p / 2)..(Y + p / 2), ∫ x in (X - p / 2)..(X + p / 2),
          (terms.map fun t => t.1.eval x * t.2.eval y).sum := by
  have hpc : ∀ P : ℝ[X], Continuous fun x : ℝ => P.eval x := fun P => P.continuous
  have hpm : ∀ (P : ℝ[X]) (c : ℝ), Continuous fun x : ℝ => P.eval x * c :=
    fun P c => (hpc P).mul continuous_const
  have hmp : ∀ (P : ℝ[X]) (c : ℝ), Continuous fun x : ℝ => c * P.eval x :=
    fun P c => continuous_const.mul (hpc P)
  have hc : ∀ (l : List (ℝ[X] × ℝ[X])) (y : ℝ),
      Continuous fun x : ℝ => (l.map fun t => t.1.eval x * t.2.eval y).sum := by
    intro l y
    induction l with
    | nil => simpa using continuous_const
    | cons t l ih => simp only [List.map_cons, List.sum_cons]; exact ((hpc _).mul continuous_const).add ih
  have hc2 : ∀ (l : List (ℝ[X] × ℝ[X])), Continuous fun y : ℝ =>
      ∫ x in (X - p / 2)..(X + p / 2), (l.map fun t => t.1.eval x * t.2.eval y).sum := by
    intro l
    induction l with
    | nil => simpa using continuous_const
    | cons t l ih =>
      have : (fun y : ℝ => ∫ x in (X - p / 2)..(X + p / 2),
          ((t :: l).map fun t => t.1.eval x * t.2.eval y).sum)
          = fun y => (∫ x in (X - p / 2)..(X + p / 2), t.1.eval x) * t.2.eval y
            + ∫ x in (X - p / 2)..(X + p / 2), (l.map fun t => t.1.eval x * t.2.eval y).sum := by
        funext y
        simp only [List.map_cons, List.sum_cons]
        rw [intervalIntegral.integral_add
          ((hpm _ _).intervalIntegrable _ _) ((hc l y).intervalIntegrable _ _), intervalIntegral.integral_mul_const]
      rw [this]
      exact (continuous_const.mul (hpc _)).add ih
  induction terms with
  | nil => simp [quad_eq_sum]
  | cons t l ih =>
    have hd := hdeg t (by simp)
    have ihl := ih (fun t' ht' => hdeg t' (by simp [ht']))
    simp only [List.map_cons, List.sum_cons]
    rw [quad_add, ihl, quad_separable rule (fun x => t.1.eval x) (fun y => t.2.eval y)]
    rw [rule_average rule d h t.1 hd.1 p X hp, rule_average rule d h t.2 hd.2 p Y hp]
    have : ∀ y : ℝ, (∫ x in (X - p / 2)..(X + p / 2), t.1.eval x * t.2.eval y
        + (l.map fun t => t.1.eval x * t.2.eval y).sum)
        = (∫ x in (X - p / 2)..(X + p / 2), t.1.eval x) * t.2.eval y
          + ∫ x in (X - p / 2)..(X + p / 2), (l.map fun t => t.1.eval x * t.2.eval y).sum := by
      intro y
      rw [intervalIntegral.integral_add
          ((hpm _ _).intervalIntegrable _ _) ((hc l y).intervalIntegrable _ _), intervalIntegral.integral_mul_const]
    simp only [this]
    rw [intervalIntegral.integral_add
      ((hmp _ _).intervalIntegrable _ _) ((hc2 l).intervalIntegrable _ _), intervalIntegral.integral_const_mul]
    field_simp

/-- The two-point Gauss-Legendre rule is symmetric, has weight two and is exact to degree three. -/
example : ExactTo [(-(1 / √3 : ℝ), (1 : ℝ)), (1 / √3, 1)] 3 ∧
    [(-(1 / √3 : ℝ), (1 : ℝ)), (1 / √3, 1)].reverse
      = [(-(1 / √3 : ℝ), (1 : ℝ)), (1 / √3, 1)].map fun r => (-r.1, r.2) := by
  have h3 : (1 / √3 : ℝ) ^ 2 = 1 / 3 := by rw [div_pow, Real.sq_sqrt (by norm_num)]; norm_num
  constructor
  · intro k hk
    generalize (1 / √3 : ℝ) = a at h3
    interval_cases k
    · norm_num
    · norm_num
    · simp only [List.map_cons, List.map_nil, List.sum_cons, List.sum_nil, neg_sq, h3]; norm_num
    · simp only [List.map_cons, List.map_nil, List.sum_cons, List.sum_nil]; norm_num; ring
  · simp

end C07

end Caustics
