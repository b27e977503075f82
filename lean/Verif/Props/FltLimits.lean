import Verif.Model.Flt
import Mathlib.Topology.Algebra.Order.Field
import Mathlib.Analysis.SpecialFunctions.Log.Basic
import Mathlib.Analysis.SpecialFunctions.Pow.Continuity

/-!
C136: the special values of the arithmetic are the limits of ordinary ones.
-/

namespace Caustics

open Filter Topology

/-- Numbers that tend to a value of the arithmetic. -/
def Flt.Limit (u : ℕ → ℝ) : Flt → Prop
  | .fin a => Tendsto u atTop (𝓝 a)
  | .pinf => Tendsto u atTop atTop
  | .ninf => Tendsto u atTop atBot
  | .nan => False

open Flt in
/-- Sums, products and quotients by positive numbers: where the result is not NaN it is the limit of the results of
numbers that tend to the operands. -/
theorem C136_arithmetic (u v : ℕ → ℝ) (x y : Flt) (hu : Limit u x) (hv : Limit v y) :
    (x + y ≠ nan → Limit (fun n => u n + v n) (x + y)) ∧ (x - y ≠ nan → Limit (fun n => u n - v n) (x - y)) ∧
    (x * y ≠ nan → Limit (fun n => u n * v n) (x * y)) ∧
    ((∀ n, 0 < v n) → x / y ≠ nan → Limit (fun n => u n / v n) (x / y)) := by
  have hsig : ∀ a : ℝ, signed a ≠ nan → (0 < a ∧ signed a = pinf) ∨ (a < 0 ∧ signed a = ninf) := by
    intro a h
    unfold signed at h ⊢
    by_cases h1 : 0 < a
    · exact Or.inl ⟨h1, if_pos h1⟩
    · by_cases h2 : a < 0
      · exact Or.inr ⟨h2, by rw [if_neg h1, if_pos h2]⟩
      · rw [if_neg h1, if_neg h2] at h
        exact absurd rfl h
  have hmul : ∀ (u v : ℕ → ℝ) (a : ℝ), Tendsto u atTop (𝓝 a) → Tendsto v atTop atTop → signed a ≠ nan →
      Limit (fun n => u n * v n) (signed a) := by
    intro u v a hu hv h
    rcases hsig a h with ⟨h1, e⟩ | ⟨h1, e⟩ <;> rw [e]
    · exact hu.pos_mul_atTop h1 hv
    · exact hu.neg_mul_atTop h1 hv
  have hmulb : ∀ (u v : ℕ → ℝ) (a : ℝ), Tendsto u atTop (𝓝 a) → Tendsto v atTop atBot → signed (-a) ≠ nan →
      Limit (fun n => u n * v n) (signed (-a)) := by
    intro u v a hu hv h
    have := hmul (fun n => -u n) (fun n => -v n) (-a) hu.neg (tendsto_neg_atBot_atTop.comp hv) h
    simpa only [neg_mul_neg] using this
  have hdiv : ∀ (u v : ℕ → ℝ) (a b : ℝ), Tendsto u atTop (𝓝 a) → Tendsto v atTop (𝓝 b) → (∀ n, 0 < v n) →
      divF (fin a) (fin b) ≠ nan → Limit (fun n => u n / v n) (divF (fin a) (fin b)) := by
    intro u v a b hu hv h0 h
    simp only [divF] at h ⊢
    by_cases hb : b = 0
    · rw [if_pos hb] at h ⊢
      subst hb
      have hv' : Tendsto (fun n => (v n)⁻¹) atTop atTop :=
        tendsto_inv_nhdsGT_zero.comp (tendsto_nhdsWithin_iff.2 ⟨hv, Eventually.of_forall h0⟩)
      have := hmul u _ a hu hv' h
      simpa only [div_eq_mul_inv] using this
    · rw [if_neg hb] at h ⊢
      exact hu.div hv hb
  cases x with
  | nan => exact hu.elim
  | fin a =>
    cases y with
    | nan => exact hv.elim
    | fin b => exact ⟨fun _ => Tendsto.add hu hv, fun _ => by
        simp only [sub_eq_add_neg]
        exact Tendsto.add hu (Tendsto.neg hv), fun _ => Tendsto.mul hu hv, fun h0 h => hdiv u v a b hu hv h0 h⟩
    | pinf => exact ⟨fun _ => Tendsto.add_atTop hu hv, fun _ => by
        simp only [sub_eq_add_neg]
        exact Tendsto.add_atBot hu (tendsto_neg_atTop_atBot.comp hv), fun h => hmul u v a hu hv h,
        fun _ _ => Tendsto.div_atTop hu hv⟩
    | ninf => exact ⟨fun _ => Tendsto.add_atBot hu hv, fun _ => by
        simp only [sub_eq_add_neg]
        exact Tendsto.add_atTop hu (tendsto_neg_atBot_atTop.comp hv), fun h => hmulb u v a hu hv h,
        fun h0 _ => absurd (tendsto_atBot.1 hv 0) fun h =>
          (h.exists).elim fun n hn => absurd (h0 n) (not_lt.2 hn)⟩
  | pinf =>
    cases y with
    | nan => exact hv.elim
    | fin b =>
      refine ⟨fun _ => Tendsto.atTop_add hu hv, fun _ => ?_, fun h => ?_, fun h0 h => ?_⟩
      · simp only [sub_eq_add_neg]
        exact Tendsto.atTop_add hu (Tendsto.neg hv)
      · have := hmul v u b hv hu h
        simp only [mul_comm] at this
        exact this
      · have hb : 0 ≤ b := ge_of_tendsto' hv fun n => (h0 n).le
        have e : (pinf / fin b : Flt) = pinf := if_neg (not_lt.2 hb)
        rw [e]
        have hle : ∀ᶠ n in atTop, v n ≤ b + 1 := (hv.eventually_lt_const (lt_add_one b)).mono fun n hn => hn.le
        have h1 : Tendsto (fun n => u n * (b + 1)⁻¹) atTop atTop := Tendsto.atTop_mul_const (by positivity) hu
        refine tendsto_atTop_mono' _ ?_ h1
        filter_upwards [hle, tendsto_atTop.1 hu 0] with n hn hun
        rw [div_eq_mul_inv]
        exact mul_le_mul_of_nonneg_left (inv_anti₀ (h0 n) hn) hun
    | pinf => exact ⟨fun _ => Tendsto.atTop_add_atTop hu hv, fun h => absurd rfl h, fun _ => Tendsto.atTop_mul_atTop₀ hu hv,
        fun _ h => absurd rfl h⟩
    | ninf => exact ⟨fun h => absurd rfl h, fun _ => by
        simp only [sub_eq_add_neg]
        exact Tendsto.atTop_add_atTop hu (tendsto_neg_atBot_atTop.comp hv), fun _ => Tendsto.atTop_mul_atBot₀ hu hv,
        fun _ h => absurd rfl h⟩
  | ninf =>
    cases y with
    | nan => exact hv.elim
    | fin b =>
      refine ⟨fun _ => Tendsto.atBot_add hu hv, fun _ => ?_, fun h => ?_, fun h0 h => ?_⟩
      · simp only [sub_eq_add_neg]
        exact Tendsto.atBot_add hu (Tendsto.neg hv)
      · have := hmulb v u b hv hu h
        simp only [mul_comm] at this
        exact this
      · have hb : 0 ≤ b := ge_of_tendsto' hv fun n => (h0 n).le
        have e : (ninf / fin b : Flt) = ninf := if_neg (not_lt.2 hb)
        rw [e]
        have hle : ∀ᶠ n in atTop, v n ≤ b + 1 := (hv.eventually_lt_const (lt_add_one b)).mono fun n hn => hn.le
        have h1 : Tendsto (fun n => u n * (b + 1)⁻¹) atTop atBot := Tendsto.atBot_mul_const (by positivity) hu
        refine tendsto_atBot_mono' _ ?_ h1
        filter_upwards [hle, tendsto_atBot.1 hu 0] with n hn hun
        rw [div_eq_mul_inv]
        exact mul_le_mul_of_nonpos_left (inv_anti₀ (h0 n) hn) hun
    | pinf => exact ⟨fun h => absurd rfl h, fun _ => by
        simp only [sub_eq_add_neg]
        exact Tendsto.atBot_add_atBot hu (tendsto_neg_atTop_atBot.comp hv), fun _ => Tendsto.atBot_mul_atTop₀ hu hv,
        fun _ h => absurd rfl h⟩
    | ninf => exact ⟨fun _ => Tendsto.atBot_add_atBot hu hv, fun h => absurd rfl h, fun _ => Tendsto.atBot_mul_atBot₀ hu hv,
        fun _ h => absurd rfl h⟩

open Flt in
/-- `exp`, and `sqrt`, powers and `log` of positive numbers have limits at all values. -/
theorem C136_functions (u : ℕ → ℝ) (x : Flt) (hu : Limit u x) :
    Limit (fun n => Real.exp (u n)) (Flt.exp x) ∧
    ((∀ n, 0 < u n) → Limit (fun n => √(u n)) (Flt.sqrt x) ∧ Limit (fun n => Real.log (u n)) (Flt.log x) ∧
      ∀ b : ℝ, 0 < b → Limit (fun n => u n ^ b) (Flt.pow b x)) := by
  cases x with
  | nan => exact hu.elim
  | fin a =>
    refine ⟨(Real.continuous_exp.tendsto a).comp hu, fun h0 => ?_⟩
    have ha : 0 ≤ a := ge_of_tendsto' hu fun n => (h0 n).le
    refine ⟨?_, ?_, fun b hb => ?_⟩
    · simp only [Flt.sqrt, if_pos ha]
      exact (Real.continuous_sqrt.tendsto a).comp hu
    · simp only [Flt.log]
      by_cases h : 0 < a
      · rw [if_pos h]
        exact (Real.continuousAt_log h.ne').tendsto.comp hu
      · have e : a = 0 := le_antisymm (not_lt.1 h) ha
        subst e
        rw [if_neg h, if_pos rfl]
        exact Real.tendsto_log_nhdsGT_zero.comp (tendsto_nhdsWithin_iff.2 ⟨hu, Eventually.of_forall h0⟩)
    · simp only [Flt.pow, if_pos ha]
      exact ((Real.continuousAt_rpow_const a b (Or.inr hb.le)).tendsto).comp hu
  | pinf =>
    exact ⟨Real.tendsto_exp_atTop.comp hu, fun _ => ⟨Real.tendsto_sqrt_atTop.comp hu, Real.tendsto_log_atTop.comp hu,
      fun b hb => (tendsto_rpow_atTop hb).comp hu⟩⟩
  | ninf =>
    exact ⟨Real.tendsto_exp_atBot.comp hu, fun h0 => absurd (tendsto_atBot.1 hu 0) fun h =>
      (h.exists).elim fun n hn => absurd (h0 n) (not_lt.2 hn)⟩

open Flt in
/-- Where the result is NaN although the operands are not, the results of numbers that tend to the operands can have
different limits. -/
theorem C136_undefined (x y : Flt) (hx : x ≠ nan) (hy : y ≠ nan) (h : x + y = nan) :
    ∃ u v u' v' : ℕ → ℝ, Limit u x ∧ Limit v y ∧ Limit u' x ∧ Limit v' y ∧
      Limit (fun n => u n + v n) (fin 0) ∧ Limit (fun n => u' n + v' n) (fin 1) := by
  have hn : Tendsto (fun n : ℕ => (n : ℝ)) atTop atTop := tendsto_natCast_atTop_atTop
  have hn' : Tendsto (fun n : ℕ => -(n : ℝ)) atTop atBot := tendsto_neg_atTop_atBot.comp hn
  have h0 : Limit (fun n : ℕ => (n : ℝ) + -(n : ℝ)) (fin 0) := by
    simp only [add_neg_cancel]
    exact tendsto_const_nhds
  have h0' : Limit (fun n : ℕ => -(n : ℝ) + (n : ℝ)) (fin 0) := by
    simp only [neg_add_cancel]
    exact tendsto_const_nhds
  have h1 : Limit (fun n : ℕ => ((n : ℝ) + 1) + -(n : ℝ)) (fin 1) := by
    refine (tendsto_const_nhds (x := (1 : ℝ))).congr fun n => ?_
    ring
  have h1' : Limit (fun n : ℕ => -(n : ℝ) + ((n : ℝ) + 1)) (fin 1) := by
    refine (tendsto_const_nhds (x := (1 : ℝ))).congr fun n => ?_
    ring
  have hs : Tendsto (fun n : ℕ => (n : ℝ) + 1) atTop atTop := tendsto_atTop_add_const_right _ 1 hn
  cases x with
  | nan => exact absurd rfl hx
  | fin a => cases y <;> first | exact absurd rfl hy | cases h
  | pinf =>
    cases y with
    | nan => exact absurd rfl hy
    | ninf => exact ⟨_, _, _, _, hn, hn', hs, hn', h0, h1⟩
    | fin b => cases h
    | pinf => cases h
  | ninf =>
    cases y with
    | nan => exact absurd rfl hy
    | pinf => exact ⟨_, _, _, _, hn', hn, hn', hs, h0', h1'⟩
    | fin b => cases h
    | ninf => cases h

example : Flt.Limit (fun n => Real.log (1 / ((n : ℝ) + 1))) Flt.ninf := by
  have h := (C136_functions (fun n : ℕ => 1 / ((n : ℝ) + 1)) (.fin 0) tendsto_one_div_add_atTop_nhds_zero_nat).2
    (fun n => by positivity)
  have := h.2.1
  simpa [Flt.log] using this

end Caustics
