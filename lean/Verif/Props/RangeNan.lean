import Verif.Model.RangeNan
import Verif.Model.Lenses
import Verif.Lemmas.Flt
import Verif.Props.Light
import Verif.Props.SersicFlux

/-! C136: sources, and lenses given by their enclosed mass, at the ends of their declared ranges. -/

open Real Filter Topology

namespace Caustics

open Flt (fin IsFin)

/-- The distance from the major axis, in the frame of the source. -/
noncomputable def minorCoord (x0 y0 phi x y : ℝ) : ℝ := (y - y0) * cos phi - (x - x0) * sin phi

/-- The distance along the major axis. -/
noncomputable def majorCoord (x0 y0 phi x y : ℝ) : ℝ := (x - x0) * cos phi + (y - y0) * sin phi

/-- The claim: within the declared ranges (light/sersic.py:177-183) the brightness is a number. -/
def C136_statement : Prop :=
  ∀ (lenstronomy : Bool) (s x0 y0 q phi n Re Ie x y : ℝ), 0 ≤ s → 0 ≤ q → q ≤ 1 → 0.36 ≤ n → n ≤ 10 → 0 ≤ Re →
    0 ≤ Ie → IsFin (Sersic.brightnessFlt lenstronomy s x0 y0 q phi n Re Ie x y)

theorem sersicFlt_eq {q n Re s : ℝ} (hq : q ≠ 0) (hRe : 0 < Re) (hs : 0 ≤ s) (x0 y0 phi Ie x y k : ℝ) :
    sersicFlt x0 y0 q phi n Re Ie x y k s = fin (brightnessSersic x0 y0 q phi n Re Ie x y k s) := by
  simp only [sersicFlt, brightnessSersic, toElliptical]
  rw [Flt.fin_div _ hq, Flt.fin_sq, Flt.fin_sq, Flt.fin_add, Flt.sqrt_fin (by positivity), Flt.fin_add,
    Flt.fin_div _ hRe.ne', Flt.pow_fin _ (by positivity), Flt.fin_sub, Flt.fin_mul, Flt.exp_fin, Flt.fin_mul]

/-- What holds: with `q` and `Re` positive the brightness is the number the formulas of C46 and C84 speak of; `Ie = 0`
and the ends of the range of `n` included. -/
theorem C136_numbers_partial (lenstronomy : Bool) {q Re s : ℝ} (hq : 0 < q) (hRe : 0 < Re) (hs : 0 ≤ s)
    (x0 y0 phi n Ie x y : ℝ) :
    Sersic.brightnessFlt lenstronomy s x0 y0 q phi n Re Ie x y
      = fin (Sersic.brightness lenstronomy s x0 y0 q phi n Re Ie x y) :=
  sersicFlt_eq hq.ne' hRe hs _ _ _ _ _ _ _

example : Sersic.brightnessFlt true 0 0 0 (1 / 2) 0 0.36 1 5 0 0 = fin (5 * exp (kLenstronomy 0.36)) := by
  rw [C136_numbers_partial true (by norm_num) one_pos le_rfl]
  have : (0 : ℝ) ^ (1 / 0.36 : ℝ) = 0 := zero_rpow (by norm_num)
  simp [Sersic.brightness, brightnessSersic, translateRotate, toElliptical] at this ⊢
  norm_num [this]

/-- Axis ratio 0: no light off the major axis, NaN on it, the centre included. -/
theorem C136_edge_on_fails (lenstronomy : Bool) {n Re s : ℝ} (hn : 0.36 ≤ n) (hRe : 0 < Re)
    (x0 y0 phi Ie x y : ℝ) :
    Sersic.brightnessFlt lenstronomy s x0 y0 0 phi n Re Ie x y
      = if minorCoord x0 y0 phi x y = 0 then Flt.nan else fin 0 := by
  have hk : 0 < (if lenstronomy then kLenstronomy n else kSersic n) := by
    cases lenstronomy
    · simpa using (C46_k_positive hn).1
    · simpa using (C46_k_positive hn).2
  simp only [Sersic.brightnessFlt, sersicFlt, translateRotate]
  generalize (if lenstronomy = true then kLenstronomy n else kSersic n) = k at hk
  show _ = if (y - y0) * cos phi - (x - x0) * sin phi = 0 then _ else _
  split_ifs with h
  · rw [h, Flt.zero_div_zero]; simp
  · rw [Flt.sq_div_zero h, Flt.fin_sq]
    have e1 : fin (((x - x0) * cos phi + (y - y0) * sin phi) ^ 2) + Flt.pinf = Flt.pinf := rfl
    have e2 : Flt.sqrt Flt.pinf = Flt.pinf := rfl
    have e3 : Flt.pinf + fin s = Flt.pinf := rfl
    have e4 : Flt.pinf / fin Re = Flt.pinf := by
      show (if Re < 0 then Flt.ninf else Flt.pinf) = _
      rw [if_neg hRe.not_gt]
    have e5 : Flt.pow (1 / n) Flt.pinf = Flt.pinf := rfl
    have e6 : Flt.pinf - fin 1 = Flt.pinf := rfl
    have e7 : Flt.exp Flt.ninf = fin 0 := rfl
    rw [e1, e2, e3, e4, e5, e6, Flt.neg_mul_pinf (by linarith), e7, Flt.fin_mul, mul_zero]

/-- A galaxy seen edge on, at a point of its disc. -/
example : Sersic.brightnessFlt false 0 0 0 0 0 4 1 1 0.3 0 = Flt.nan := by
  rw [C136_edge_on_fails false (by norm_num) one_pos, if_pos (by simp [minorCoord])]

/-- What the values should be: along the major axis the brightness does not depend on the axis ratio, and off it the
brightness goes to zero with the axis ratio; the flux does too. -/
theorem C136_edge_on_limit (lenstronomy : Bool) {n Re Ie : ℝ} (hn : 0.36 ≤ n) (hRe : 0 < Re)
    (s x0 y0 phi x y : ℝ) :
    (minorCoord x0 y0 phi x y = 0 → ∀ q, Sersic.brightness lenstronomy s x0 y0 q phi n Re Ie x y
      = Ie * exp (-sersicK lenstronomy n * (((|majorCoord x0 y0 phi x y| + s) / Re) ^ (1 / n) - 1))) ∧
    (minorCoord x0 y0 phi x y ≠ 0 →
      Tendsto (fun q => Sersic.brightness lenstronomy s x0 y0 q phi n Re Ie x y) (𝓝[>] 0) (𝓝 0)) ∧
    Tendsto (fun q => ∫ p : ℝ × ℝ, Sersic.brightness lenstronomy 0 x0 y0 q phi n Re Ie p.1 p.2) (𝓝[>] 0) (𝓝 0) := by
  have hn0 : 0 < n := by norm_num at hn; linarith
  have hk : 0 < sersicK lenstronomy n := sersicK_pos lenstronomy hn
  have hB : ∀ q, Sersic.brightness lenstronomy s x0 y0 q phi n Re Ie x y
      = Ie * exp (-sersicK lenstronomy n *
        (((√(majorCoord x0 y0 phi x y ^ 2 + (minorCoord x0 y0 phi x y / q) ^ 2) + s) / Re) ^ (1 / n) - 1)) := by
    intro q
    cases lenstronomy <;> rfl
  refine ⟨fun h q => ?_, fun h => ?_, ?_⟩
  · rw [hB, h, zero_div, zero_pow two_ne_zero, add_zero, sqrt_sq_eq_abs]
  · simp only [hB]
    have h1 : Tendsto (fun q : ℝ => (minorCoord x0 y0 phi x y / q) ^ 2) (𝓝[>] 0) atTop := by
      have : (fun q : ℝ => (minorCoord x0 y0 phi x y / q) ^ 2) = fun q => (minorCoord x0 y0 phi x y) ^ 2 * (q⁻¹) ^ 2 := by
        funext q; ring
      rw [this]
      exact ((tendsto_pow_atTop two_ne_zero).comp tendsto_inv_nhdsGT_zero).const_mul_atTop (by positivity)
    have h2 : Tendsto (fun q : ℝ => ((√(majorCoord x0 y0 phi x y ^ 2 + (minorCoord x0 y0 phi x y / q) ^ 2) + s) / Re) ^ (1 / n))
        (𝓝[>] 0) atTop := by
      refine (tendsto_rpow_atTop (by positivity)).comp ?_
      refine Tendsto.atTop_div_const hRe ?_
      exact tendsto_atTop_add_const_right _ _ (tendsto_sqrt_atTop.comp (tendsto_atTop_add_const_left _ _ h1))
    have h3 := (tendsto_exp_atBot.comp ((tendsto_atTop_add_const_right _ (-1) h2).const_mul_atTop_of_neg
      (neg_neg_of_pos hk))).const_mul Ie
    rw [mul_zero] at h3
    simpa only [Function.comp_def, sub_eq_add_neg] using h3
  · have h1 : Tendsto (fun q : ℝ => 2 * π * q * n * Ie * Re ^ 2 * exp (sersicK lenstronomy n)
        * sersicK lenstronomy n ^ (-(2 * n)) * Gamma (2 * n)) (𝓝[>] 0) (𝓝 0) := by
      have : Continuous (fun q : ℝ => 2 * π * q * n * Ie * Re ^ 2 * exp (sersicK lenstronomy n)
        * sersicK lenstronomy n ^ (-(2 * n)) * Gamma (2 * n)) := by fun_prop
      have := this.tendsto 0
      simp only [mul_zero, zero_mul] at this
      exact this.mono_left nhdsWithin_le_nhds
    refine h1.congr' ?_
    filter_upwards [self_mem_nhdsWithin] with q hq
    exact ((C84_total lenstronomy hn hq hRe).2).symm

example : Tendsto (fun q => Sersic.brightness false 0 0 0 q 0 4 1 1 0 1) (𝓝[>] 0) (𝓝 0) :=
  (C136_edge_on_limit false (by norm_num) one_pos 0 0 0 0 0 1).2.1 (by simp [minorCoord])

/-- Half-light radius 0: no light, but NaN at the centre unless the source is softened. -/
theorem C136_point_fails (lenstronomy : Bool) {n q s : ℝ} (hn : 0.36 ≤ n) (hq : 0 < q) (hs : 0 ≤ s)
    (x0 y0 phi Ie x y : ℝ) :
    Sersic.brightnessFlt lenstronomy s x0 y0 q phi n 0 Ie x y = if (x, y) = (x0, y0) ∧ s = 0 then Flt.nan else fin 0 := by
  have hk : 0 < (if lenstronomy then kLenstronomy n else kSersic n) := by
    cases lenstronomy
    · simpa using (C46_k_positive hn).1
    · simpa using (C46_k_positive hn).2
  simp only [Sersic.brightnessFlt, sersicFlt, translateRotate]
  generalize (if lenstronomy = true then kLenstronomy n else kSersic n) = k at hk
  rw [Flt.fin_div _ hq.ne', Flt.fin_sq, Flt.fin_sq, Flt.fin_add, Flt.sqrt_fin (by positivity), Flt.fin_add]
  set e := √(((x - x0) * cos phi + (y - y0) * sin phi) ^ 2 + (((y - y0) * cos phi - (x - x0) * sin phi) / q) ^ 2) + s with he
  have hiff : e = 0 ↔ (x, y) = (x0, y0) ∧ s = 0 := by
    constructor
    · intro h
      have h0 := Real.sqrt_nonneg
        (((x - x0) * cos phi + (y - y0) * sin phi) ^ 2 + (((y - y0) * cos phi - (x - x0) * sin phi) / q) ^ 2)
      have h1 : √(((x - x0) * cos phi + (y - y0) * sin phi) ^ 2 + (((y - y0) * cos phi - (x - x0) * sin phi) / q) ^ 2) = 0 := by
        linarith
      rw [Real.sqrt_eq_zero (by positivity)] at h1
      have h2 : (x - x0) * cos phi + (y - y0) * sin phi = 0 := by
        have := sq_nonneg (((y - y0) * cos phi - (x - x0) * sin phi) / q)
        exact pow_eq_zero_iff two_ne_zero |>.1 (le_antisymm (by nlinarith) (sq_nonneg _))
      have h3 : ((y - y0) * cos phi - (x - x0) * sin phi) = 0 := by
        rw [h2] at h1
        have : ((y - y0) * cos phi - (x - x0) * sin phi) / q = 0 := by
          apply pow_eq_zero_iff two_ne_zero |>.1
          linarith
        rcases div_eq_zero_iff.1 this with h | h
        · exact h
        · exact absurd h hq.ne'
      have hc := sin_sq_add_cos_sq phi
      refine ⟨?_, by linarith⟩
      have hx : x - x0 = 0 := by linear_combination cos phi * h2 - sin phi * h3 - (x - x0) * hc
      have hy : y - y0 = 0 := by linear_combination sin phi * h2 + cos phi * h3 - (y - y0) * hc
      rw [sub_eq_zero.1 hx, sub_eq_zero.1 hy]
    · rintro ⟨h, rfl⟩
      rw [Prod.mk.injEq] at h
      rw [he, h.1, h.2]
      simp
  have hpos : 0 ≤ e := by positivity
  clear_value e
  split_ifs with h
  · rw [hiff.2 h, Flt.zero_div_zero]; simp
  · have hp : 0 < e := lt_of_le_of_ne hpos fun h' => h (hiff.1 h'.symm)
    have e5 : Flt.pow (1 / n) Flt.pinf = Flt.pinf := rfl
    have e6 : Flt.pinf - fin 1 = Flt.pinf := rfl
    have e7 : Flt.exp Flt.ninf = fin 0 := rfl
    rw [Flt.pos_div_zero hp, e5, e6, Flt.neg_mul_pinf (by linarith), e7, Flt.fin_mul, mul_zero]

example : Sersic.brightnessFlt true 0 1 2 0.5 0.1 4 0 1 1 2 = Flt.nan ∧
    Sersic.brightnessFlt true 0 1 2 0.5 0.1 4 0 1 1 3 = fin 0 := by
  constructor
  · rw [C136_point_fails true (by norm_num) (by norm_num) le_rfl, if_pos ⟨rfl, rfl⟩]
  · rw [C136_point_fails true (by norm_num) (by norm_num) le_rfl, if_neg]
    norm_num

/-- What the values should be: the centre is equally bright for every half-light radius, the flux goes to zero with its
square. -/
theorem C136_point_limit (lenstronomy : Bool) {n q Ie : ℝ} (hn : 0.36 ≤ n) (hq : 0 < q) (x0 y0 phi : ℝ) :
    (∀ Re, 0 < Re → Sersic.brightness lenstronomy 0 x0 y0 q phi n Re Ie x0 y0 = Ie * exp (sersicK lenstronomy n)) ∧
    ∃ c : ℝ, ∀ Re, 0 < Re →
      ∫ p : ℝ × ℝ, Sersic.brightness lenstronomy 0 x0 y0 q phi n Re Ie p.1 p.2 = c * Re ^ 2 := by
  have hn0 : 0 < n := by norm_num at hn; linarith
  refine ⟨fun Re hRe => ?_,
    2 * π * q * n * Ie * exp (sersicK lenstronomy n) * sersicK lenstronomy n ^ (-(2 * n)) * Gamma (2 * n),
    fun Re hRe => ((C84_total lenstronomy hn hq hRe).2).trans ?_⟩
  · have h0 : (0 : ℝ) ^ (1 / n) = 0 := zero_rpow (by positivity)
    simp only [Sersic.brightness, brightnessSersic, translateRotate, toElliptical, sub_self, zero_mul, add_zero, zero_div,
      zero_pow two_ne_zero, Real.sqrt_zero, h0, zero_sub, mul_neg, mul_one, neg_neg]
    cases lenstronomy <;> rfl
  · ring

example : Sersic.brightness false 0 1 2 0.5 0.1 4 1e-9 3 1 2 = 3 * exp (sersicK false 4) :=
  (C136_point_limit false (by norm_num) (by norm_num) 1 2 0.1).1 _ (by norm_num)

/-- The claim fails at both ends. -/
theorem C136_fails : ¬ C136_statement := by
  intro h
  have := h false 0 0 0 0 0 4 1 1 0 0 le_rfl le_rfl zero_le_one (by norm_num) (by norm_num) zero_le_one zero_le_one
  rw [C136_edge_on_fails false (by norm_num) one_pos, if_pos (by simp [minorCoord])] at this
  exact Flt.not_isFin_nan this

/-- One NaN among the brightnesses that are added up, over the sources of a `LightStack` or over the samples of a pixel,
makes the sum NaN. -/
theorem C136_sum (l : List Flt) (h : Flt.nan ∈ l) : sumFlt l = Flt.nan := by
  have key : ∀ (l : List Flt) (a : Flt), a = Flt.nan ∨ Flt.nan ∈ l → l.foldl (· + ·) a = Flt.nan := by
    intro l
    induction l with
    | nil => rintro a (h | h) <;> [exact h; cases h]
    | cons b l ih =>
      intro a h
      refine ih (a + b) ?_
      rcases h with rfl | h
      · exact .inl (Flt.nan_add b)
      · rcases List.mem_cons.1 h with rfl | h
        · exact .inl (Flt.add_nan a)
        · exact .inr h
  exact key l _ (.inr h)

example : sumFlt [fin 1, Sersic.brightnessFlt false 0 0 0 0 0 4 1 1 0.3 0, fin 2] = Flt.nan := by
  refine C136_sum _ ?_
  rw [C136_edge_on_fails false (by norm_num) one_pos, if_pos (by simp [minorCoord])]
  simp

/-- A star of angular radius 0 shines at one point. -/
theorem C136_star (x0 y0 Ie x y gamma : ℝ) :
    brightnessStar x0 y0 0 Ie x y gamma = some (if (x, y) = (x0, y0) then Ie else 0) := by
  rw [C47_actual]
  simp only [limbLaw, div_one]
  by_cases h : (x, y) = (x0, y0)
  · rw [if_pos h]
    rw [Prod.mk.injEq] at h
    simp [h.1, h.2]
  · have h1 : ¬ √((x - x0) ^ 2 + (y - y0) ^ 2) ≤ 0 := by
      intro h1
      apply h
      have h0 : √((x - x0) ^ 2 + (y - y0) ^ 2) = 0 := le_antisymm h1 (Real.sqrt_nonneg _)
      rw [Real.sqrt_eq_zero (by positivity)] at h0
      have ha : x - x0 = 0 :=
        pow_eq_zero_iff two_ne_zero |>.1 (le_antisymm (by nlinarith [sq_nonneg (y - y0)]) (sq_nonneg _))
      have hb : y - y0 = 0 :=
        pow_eq_zero_iff two_ne_zero |>.1 (le_antisymm (by nlinarith [sq_nonneg (x - x0)]) (sq_nonneg _))
      rw [sub_eq_zero.1 ha, sub_eq_zero.1 hb]
    rw [if_neg h1, if_neg h]

example : brightnessStar 1 2 0 5 1 2 0.3 = some 5 ∧ brightnessStar 1 2 0 5 1 2.5 0.3 = some 0 := by
  constructor <;> rw [C136_star] <;> norm_num

/-- A function of numbers, applied to floating point numbers. -/
def liftFlt (M : ℝ → ℝ) : Flt → Flt
  | .fin r => fin (M r)
  | _ => Flt.nan

/-- A lens given by its enclosed mass: with a positive axis ratio the deflection is the number of C28, off the centre or
softened. -/
theorem C136_enclosed_numbers {Gc2 q s : ℝ} (hq : 0 < q) (M : ℝ → ℝ) (x0 y0 phi x y : ℝ)
    (hr : 0 < √(majorCoord x0 y0 phi x y ^ 2 / q + q * minorCoord x0 y0 phi x y ^ 2) + s) :
    enclosedFlt Gc2 x0 y0 q phi (liftFlt M) s x y
      = (fin (enclosedDeflection Gc2 x0 y0 q phi M s x y).1, fin (enclosedDeflection Gc2 x0 y0 q phi M s x y).2) := by
  simp only [enclosedFlt, enclosedDeflection, translateRotate, derotate]
  change 0 < √(((x - x0) * cos phi + (y - y0) * sin phi) ^ 2 / q + q * ((y - y0) * cos phi - (x - x0) * sin phi) ^ 2) + s at hr
  rw [Flt.fin_sq, Flt.fin_sq, Flt.fin_div _ hq.ne', Flt.fin_mul, Flt.fin_add, Flt.sqrt_fin (by positivity), Flt.fin_add]
  generalize √(((x - x0) * cos phi + (y - y0) * sin phi) ^ 2 / q + q * ((y - y0) * cos phi - (x - x0) * sin phi) ^ 2) + s
    = r at hr
  simp only [liftFlt, Flt.fin_sq, Flt.fin_mul]
  rw [Flt.fin_div _ (pow_pos hr 2).ne']
  simp only [Flt.fin_mul]
  rw [Flt.fin_div _ (mul_pos hq hr).ne', Flt.fin_div _ hr.ne']
  simp only [Flt.fin_mul, Flt.fin_sub, Flt.fin_add]

example := C136_enclosed_numbers (Gc2 := 1) (s := 1) (q := 1 / 2) (by norm_num) (fun r => r ^ 2) 0 0 0 3 4 (by positivity)

/-- Axis ratio 0: NaN at every position, whatever the mass function and the softening. -/
theorem C136_enclosed_fails (Gc2 x0 y0 phi s : ℝ) (M : Flt → Flt) (x y : ℝ) :
    enclosedFlt Gc2 x0 y0 0 phi M s x y = (Flt.nan, Flt.nan) := by
  simp only [enclosedFlt, translateRotate]
  generalize (x - x0) * cos phi + (y - y0) * sin phi = a
  by_cases ha : a = 0
  · have e1 : Flt.sq (fin a) / fin 0 = Flt.nan := by
      rw [ha, Flt.fin_sq, zero_pow two_ne_zero, Flt.zero_div_zero]
    simp [e1]
  · have e1 : Flt.sq (fin a) / fin 0 = Flt.pinf := by
      rw [Flt.fin_sq]; exact Flt.pos_div_zero (by positivity)
    rw [e1, Flt.fin_sq, Flt.fin_mul]
    have e2 : ∀ b, Flt.pinf + fin b = Flt.pinf := fun _ => rfl
    have e3 : Flt.sqrt Flt.pinf = Flt.pinf := rfl
    rw [e2, e3, e2, Flt.zero_mul_pinf]
    simp

example : enclosedFlt 1 0 0 0 0 (liftFlt fun r => r) 0 3 4 = (Flt.nan, Flt.nan) := C136_enclosed_fails ..

end Caustics
