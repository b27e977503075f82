import Verif.Model.Flt

/-! Floating point numbers: finite numbers compute as reals, NaN absorbs. -/

open Real

namespace Caustics

namespace Flt

theorem fin_add (a b : ℝ) : fin a + fin b = fin (a + b) := rfl
theorem fin_neg (a : ℝ) : -fin a = fin (-a) := rfl
theorem fin_sub (a b : ℝ) : fin a - fin b = fin (a - b) := by rw [sub_eq_add_neg]; rfl
theorem fin_mul (a b : ℝ) : fin a * fin b = fin (a * b) := rfl
theorem fin_div {b : ℝ} (a : ℝ) (hb : b ≠ 0) : fin a / fin b = fin (a / b) := by
  show (if b = 0 then signed a else fin (a / b)) = _
  rw [if_neg hb]
theorem fin_sq (a : ℝ) : sq (fin a) = fin (a ^ 2) := by rw [sq, fin_mul, pow_two]
theorem sqrt_fin {a : ℝ} (ha : 0 ≤ a) : sqrt (fin a) = fin (√a) := if_pos ha
theorem log_fin {a : ℝ} (ha : 0 < a) : log (fin a) = fin (Real.log a) := if_pos ha
theorem exp_fin (a : ℝ) : exp (fin a) = fin (Real.exp a) := rfl
theorem pow_fin {a : ℝ} (b : ℝ) (ha : 0 ≤ a) : pow b (fin a) = fin (a ^ b) := if_pos ha
theorem arccosh_fin {a : ℝ} (ha : 1 ≤ a) : arccosh (fin a) = fin (arcosh a) := if_pos ha
theorem arccos_fin {a : ℝ} (ha : |a| ≤ 1) : arccos (fin a) = fin (Real.arccos a) := if_pos ha

@[simp] theorem nan_add (a : Flt) : nan + a = nan := by cases a <;> rfl
@[simp] theorem add_nan (a : Flt) : a + nan = nan := by cases a <;> rfl
@[simp] theorem nan_sub (a : Flt) : nan - a = nan := nan_add _
@[simp] theorem sub_nan (a : Flt) : a - nan = nan := add_nan _
@[simp] theorem nan_mul (a : Flt) : nan * a = nan := by cases a <;> rfl
@[simp] theorem mul_nan (a : Flt) : a * nan = nan := by cases a <;> rfl
@[simp] theorem nan_div (a : Flt) : nan / a = nan := by cases a <;> rfl
@[simp] theorem div_nan (a : Flt) : a / nan = nan := by cases a <;> rfl
@[simp] theorem sq_nan : sq nan = nan := rfl
@[simp] theorem sqrt_nan : sqrt nan = nan := rfl
@[simp] theorem log_nan : log nan = nan := rfl
@[simp] theorem exp_nan : exp nan = nan := rfl
@[simp] theorem pow_nan (b : ℝ) : pow b nan = nan := rfl

theorem zero_div_zero : fin 0 / fin 0 = nan := by
  show (if (0 : ℝ) = 0 then signed 0 else _) = _
  simp [signed]

theorem pos_div_zero {a : ℝ} (ha : 0 < a) : fin a / fin 0 = pinf := by
  show (if (0 : ℝ) = 0 then signed a else _) = _
  simp [signed, ha]

theorem neg_div_zero {a : ℝ} (ha : a < 0) : fin a / fin 0 = ninf := by
  show (if (0 : ℝ) = 0 then signed a else _) = _
  simp [signed, ha, ha.le]

theorem sq_div_zero {a : ℝ} (ha : a ≠ 0) : sq (fin a / fin 0) = pinf := by
  rcases lt_or_gt_of_ne ha with h | h
  · rw [neg_div_zero h]; rfl
  · rw [pos_div_zero h]; rfl

theorem zero_mul_pinf : fin 0 * pinf = nan := by
  show signed 0 = nan
  simp [signed]

theorem neg_mul_pinf {a : ℝ} (ha : a < 0) : fin a * pinf = ninf := by
  show signed a = ninf
  simp [signed, ha, ha.le]

@[simp] theorem not_isFin_nan : ¬ IsFin nan := fun ⟨_, h⟩ => by cases h

end Flt

end Caustics
