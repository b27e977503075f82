import Verif.Model.Lenses
import Mathlib.Data.Int.Log
import Mathlib.Algebra.Order.Round

/-!
Arithmetic with rounding. Everywhere else the model computes with exact reals; here the same lines of code are written
operation by operation over an arbitrary arithmetic, of which only the size of the rounding error of one operation is known.
Not modelled: overflow, underflow, subnormal numbers and fused operations.
-/

open Real

namespace Caustics

/-- The elementwise operations of an array library. -/
structure Arith where
  add : ℝ → ℝ → ℝ
  sub : ℝ → ℝ → ℝ
  mul : ℝ → ℝ → ℝ
  div : ℝ → ℝ → ℝ
  sqrt : ℝ → ℝ
  log : ℝ → ℝ
  arccosh : ℝ → ℝ

/-- Each operation returns its exact result up to a relative error of at most `u` (`u = 2^-53` in double precision,
`2^-24` in single precision). -/
structure Arith.Rounds (A : Arith) (u : ℝ) : Prop where
  add : ∀ a b, |A.add a b - (a + b)| ≤ u * |a + b|
  sub : ∀ a b, |A.sub a b - (a - b)| ≤ u * |a - b|
  mul : ∀ a b, |A.mul a b - a * b| ≤ u * |a * b|
  div : ∀ a b, b ≠ 0 → |A.div a b - a / b| ≤ u * |a / b|
  sqrt : ∀ a, 0 ≤ a → |A.sqrt a - √a| ≤ u * √a
  log : ∀ a, 0 < a → |A.log a - Real.log a| ≤ u * |Real.log a|
  arccosh : ∀ a, 1 ≤ a → |A.arccosh a - arcosh a| ≤ u * |arcosh a|

/-- No rounding at all. -/
noncomputable def exactArith : Arith where
  add := (· + ·)
  sub := (· - ·)
  mul := (· * ·)
  div := (· / ·)
  sqrt := fun a => √a
  log := Real.log
  arccosh := arcosh

/-- The nearest number with `p + 1` significant bits (unbounded exponent). -/
noncomputable def flRound (p : ℕ) (x : ℝ) : ℝ :=
  round (x / 2 ^ (Int.log 2 |x| - p)) * 2 ^ (Int.log 2 |x| - p)

/-- Correctly rounded arithmetic with `p + 1` significant bits: IEEE double precision is `p = 52`, single `p = 23`. -/
noncomputable def nearestArith (p : ℕ) : Arith where
  add a b := flRound p (a + b)
  sub a b := flRound p (a - b)
  mul a b := flRound p (a * b)
  div a b := flRound p (a / b)
  sqrt a := flRound p √a
  log a := flRound p (Real.log a)
  arccosh a := flRound p (arcosh a)

namespace Arith

variable (A : Arith)

/-- `x**2` multiplies `x` with itself. -/
def sq (a : ℝ) : ℝ := A.mul a a

/-- `R = backend.sqrt(x**2 + y**2) + s` after `translate_rotate` (lenses/func/sis.py:54-55, point.py:56-57, utils.py:108-109). -/
def radius (x0 y0 s x y : ℝ) : ℝ :=
  A.add (A.sqrt (A.add (A.sq (A.sub x x0)) (A.sq (A.sub y y0)))) s

/-- lenses/func/sis.py:54-58. -/
def sisDeflection (x0 y0 Rein s x y : ℝ) : ℝ × ℝ :=
  let R := A.radius x0 y0 s x y
  (A.div (A.mul Rein (A.sub x x0)) R, A.div (A.mul Rein (A.sub y y0)) R)

/-- lenses/func/sis.py:105-107. -/
def sisPotential (x0 y0 Rein s x y : ℝ) : ℝ := A.mul Rein (A.radius x0 y0 s x y)

/-- lenses/func/sis.py:154-156. -/
noncomputable def sisConvergence (x0 y0 Rein s x y : ℝ) : ℝ := A.div (A.mul 0.5 Rein) (A.radius x0 y0 s x y)

/-- lenses/func/point.py:56-60. -/
def pointDeflection (x0 y0 Rein s x y : ℝ) : ℝ × ℝ :=
  let th := A.radius x0 y0 s x y
  (A.div (A.mul (A.sub x x0) (A.sq Rein)) (A.sq th), A.div (A.mul (A.sub y y0) (A.sq Rein)) (A.sq th))

/-- lenses/func/mass_sheet.py:50-52. -/
def sheetDeflection (x0 y0 kappa x y : ℝ) : ℝ × ℝ := (A.mul (A.sub x x0) kappa, A.mul (A.sub y y0) kappa)

/-- lenses/func/external_shear.py:56-59. -/
def shearDeflection (x0 y0 gamma1 gamma2 x y : ℝ) : ℝ × ℝ :=
  let dx := A.sub x x0
  let dy := A.sub y y0
  (A.add (A.mul gamma1 dx) (A.mul gamma2 dy), A.sub (A.mul gamma2 dx) (A.mul gamma1 dy))

/-- `f` of lenses/func/pseudo_jaffe.py:146. -/
def pjProfile (Rc Rs R : ℝ) : ℝ :=
  A.sub (A.div (A.div R Rc) (A.add 1 (A.sqrt (A.add 1 (A.sq (A.div R Rc))))))
    (A.div R (A.mul Rs (A.add 1 (A.sqrt (A.add 1 (A.sq (A.div R Rs)))))))

/-- lenses/func/pseudo_jaffe.py:144-150; `C` is the value of `2 * convergence_0 * Rc * Rs / (Rs - Rc)`, computed before. -/
def pjDeflection (C Rc Rs x0 y0 s x y : ℝ) : ℝ × ℝ :=
  let R := A.radius x0 y0 s x y
  let alpha := A.mul C (A.pjProfile Rc Rs R)
  (A.div (A.mul alpha (A.sub x x0)) R, A.div (A.mul alpha (A.sub y y0)) R)

/-- lenses/func/nfw.py:188-197. Comparisons and `clamp` do not round; the constants are exact here. -/
noncomputable def nfwH (arccos : ℝ → ℝ) (x : ℝ) : ℝ :=
  let xg := max x (1 + 1e-6)
  let xl := min x (1 - 1e-6)
  A.add (A.log (A.div x 2))
    (if x > 1 then A.div (arccos (A.div 1 xg)) (A.sqrt (A.sub (A.sq xg) 1))
     else if x < 1 then A.div (A.arccosh (A.div 1 xl)) (A.sqrt (A.sub 1 (A.sq xl))) else 1)

/-- lenses/func/nfw.py:254-264; `K` is the value of `16 * pi * G_over_c2 * scale_density * scale_radius**3` and `rs` that of
`scale_radius`, computed before. -/
noncomputable def nfwDeflection (arccos : ℝ → ℝ) (K rs d_l x0 y0 s x y : ℝ) : ℝ × ℝ :=
  let th := A.radius x0 y0 s x y
  let xi := A.mul (A.mul d_l th) arcsecToRad
  let r := A.div xi rs
  let a := A.div (A.mul (A.mul K (A.nfwH arccos r)) radToArcsec) xi
  (A.div (A.mul a (A.sub x x0)) th, A.div (A.mul a (A.sub y y0)) th)

/-- lenses/singleplane.py:92-98 for one component: `zeros_like(x)` and then one lens after the other. -/
def runningSum (l : List ℝ) : ℝ := l.foldl A.add 0

/-- lenses/base.py:862-863 for one component. -/
def raytrace (x a : ℝ) : ℝ := A.sub x a

end Arith

/-- An order in which a reduction adds up its terms; `backend.sum` and `backend.mean` do not say which one they use. -/
inductive SumTree (ι : Type*) where
  | leaf (i : ι)
  | node (l r : SumTree ι)

namespace SumTree

variable {ι : Type*}

/-- The terms, in the order in which they appear. -/
def terms : SumTree ι → List ι
  | leaf i => [i]
  | node l r => l.terms ++ r.terms

/-- The sum with rounding. -/
def eval (A : Arith) (f : ι → ℝ) : SumTree ι → ℝ
  | leaf i => f i
  | node l r => A.add (l.eval A f) (r.eval A f)

end SumTree

/-- `gaussian_quadrature_integrator` (utils.py:718): `backend.sum(F * weight, dim=-1)`, adding in the order `t`. -/
def Arith.integrator {ι : Type*} (A : Arith) (t : SumTree ι) (F w : ι → ℝ) : ℝ := t.eval A fun i => A.mul (F i) (w i)

end Caustics
