import Mathlib.Analysis.SpecialFunctions.Pow.Real
import Mathlib.Analysis.SpecialFunctions.Arcosh
import Mathlib.Analysis.SpecialFunctions.Trigonometric.Arctan
import Mathlib.Analysis.SpecialFunctions.Trigonometric.Inverse

/-!
Floating point numbers with both infinities and NaN, without rounding and overflow: what torch and jax do with numbers
outside the domain of an operation (IEEE 754).

Simplification: there is one zero.  A division by it counts as a division by `+0.0`, which is what a parameter set to
`0.0`, a square, a square root, or a product of such numbers is.
-/

open Real

namespace Caustics

inductive Flt
  | fin (r : ℝ)
  | pinf
  | ninf
  | nan

namespace Flt

noncomputable instance : Coe ℝ Flt := ⟨fin⟩

/-- Infinity with the sign of a number; zero has none. -/
noncomputable def signed (a : ℝ) : Flt := if 0 < a then pinf else if a < 0 then ninf else nan

noncomputable def addF : Flt → Flt → Flt
  | nan, _ => nan
  | _, nan => nan
  | fin a, fin b => fin (a + b)
  | pinf, ninf => nan
  | ninf, pinf => nan
  | pinf, _ => pinf
  | _, pinf => pinf
  | ninf, _ => ninf
  | _, ninf => ninf

noncomputable def negF : Flt → Flt
  | fin a => fin (-a)
  | pinf => ninf
  | ninf => pinf
  | nan => nan

noncomputable def mulF : Flt → Flt → Flt
  | nan, _ => nan
  | _, nan => nan
  | fin a, fin b => fin (a * b)
  | fin a, pinf => signed a
  | fin a, ninf => signed (-a)
  | pinf, fin a => signed a
  | ninf, fin a => signed (-a)
  | pinf, pinf => pinf
  | ninf, ninf => pinf
  | _, _ => ninf

/-- `0/0` and `inf/inf` are NaN. -/
noncomputable def divF : Flt → Flt → Flt
  | nan, _ => nan
  | _, nan => nan
  | fin a, fin b => if b = 0 then signed a else fin (a / b)
  | fin _, _ => fin 0
  | pinf, fin b => if b < 0 then ninf else pinf
  | ninf, fin b => if b < 0 then pinf else ninf
  | _, _ => nan

noncomputable instance : Add Flt := ⟨addF⟩
noncomputable instance : Neg Flt := ⟨negF⟩
noncomputable instance : Sub Flt := ⟨fun a b => addF a (negF b)⟩
noncomputable instance : Mul Flt := ⟨mulF⟩
noncomputable instance : Div Flt := ⟨divF⟩

/-- `x ** 2` -/
noncomputable def sq (a : Flt) : Flt := a * a

noncomputable def sqrt : Flt → Flt
  | fin a => if 0 ≤ a then fin (√a) else nan
  | pinf => pinf
  | _ => nan

noncomputable def log : Flt → Flt
  | fin a => if 0 < a then fin (Real.log a) else if a = 0 then ninf else nan
  | pinf => pinf
  | _ => nan

noncomputable def exp : Flt → Flt
  | fin a => fin (Real.exp a)
  | pinf => pinf
  | ninf => fin 0
  | nan => nan

/-- `x ** b` for a finite positive exponent that is not an integer. -/
noncomputable def pow (b : ℝ) : Flt → Flt
  | fin a => if 0 ≤ a then fin (a ^ b) else nan
  | pinf => pinf
  | ninf => pinf
  | nan => nan

noncomputable def arccosh : Flt → Flt
  | fin a => if 1 ≤ a then fin (arcosh a) else nan
  | pinf => pinf
  | _ => nan

noncomputable def arccos : Flt → Flt
  | fin a => if |a| ≤ 1 then fin (Real.arccos a) else nan
  | _ => nan

/-- `clamp(x, min=m)`: NaN stays NaN. -/
noncomputable def clampMin (m : ℝ) : Flt → Flt
  | fin a => fin (max a m)
  | pinf => pinf
  | ninf => fin m
  | nan => nan

/-- `clamp(x, max=m)`. -/
noncomputable def clampMax (m : ℝ) : Flt → Flt
  | fin a => fin (min a m)
  | pinf => fin m
  | ninf => ninf
  | nan => nan

/-- `x < c`; comparisons with NaN are false. -/
def ltc : Flt → ℝ → Prop
  | fin a, c => a < c
  | ninf, _ => True
  | _, _ => False

/-- `x > c`. -/
def gtc : Flt → ℝ → Prop
  | fin a, c => c < a
  | pinf, _ => True
  | _, _ => False

/-- A finite number. -/
def IsFin (a : Flt) : Prop := ∃ r, a = fin r

end Flt

end Caustics
