import Verif.Model.Lenses
import Verif.Model.Light
import Mathlib.Data.Fin.Tuple.Basic

/-!
What `backend.jacfwd` (forward mode) and `backend.grad` (reverse mode) compute: backend_obj.py:392-426, that is
`torch.func.jacfwd/grad` and `jax.jacfwd/grad`.  They are used by lenses/base.py:655-672 (deflection as the gradient of
the potential), 468-494 and 971-998 (Jacobian of the deflection), and by whoever fits a model to data.

Programs are scalar expressions with shared subexpressions (`letE`), written with the operations the lens and source
functions use.  Each operation propagates derivatives by the rule the libraries use, including what happens outside
the domain of the operation.  Numbers are reals, infinity, NaN, or not determined by this model; there is no rounding
and no overflow.

Simplifications: the sign of an infinity is not tracked (a result depending on it is `unk`); an array is taken entry by
entry; the gradient of a comparison is nil and the tie in `clamp` passes the derivative.
-/

open Real

namespace Caustics

/-- A floating point number without rounding; `unk` is any of them. -/
inductive XR
  | fin (r : ℝ)
  | inf
  | nan
  | unk

namespace XR

/-- Addition: NaN absorbs. -/
noncomputable def add : XR → XR → XR
  | nan, _ => nan
  | _, nan => nan
  | fin a, fin b => fin (a + b)
  | fin _, inf => inf
  | inf, fin _ => inf
  | _, _ => unk

/-- Multiplication: zero times infinity is NaN. -/
noncomputable def mul : XR → XR → XR
  | nan, _ => nan
  | _, nan => nan
  | fin a, fin b => fin (a * b)
  | fin a, inf => if a = 0 then nan else inf
  | inf, fin a => if a = 0 then nan else inf
  | inf, inf => inf
  | _, _ => unk

/-- Division: `0/0` is NaN, anything else over zero is infinite. -/
noncomputable def div : XR → XR → XR
  | nan, _ => nan
  | _, nan => nan
  | fin a, fin b => if b = 0 then (if a = 0 then nan else inf) else fin (a / b)
  | fin _, inf => fin 0
  | inf, fin _ => inf
  | inf, inf => nan
  | _, _ => unk

/-- Negation. -/
noncomputable def neg : XR → XR
  | fin a => fin (-a)
  | x => x

/-- A function of a finite number applied to any number: NaN stays NaN. -/
def lift (f : ℝ → XR) : XR → XR
  | fin a => f a
  | nan => nan
  | _ => unk

end XR

/-- The functions of one variable. -/
inductive UnOp
  | sqrt | log | exp | atan | atanh | acos | acosh | sin | cos
  /-- `x ** 2` -/
  | sq
  /-- `x ** 3` -/
  | cube
  /-- `x ** c` with a constant that is not an integer -/
  | powc (c : ℝ)

/-- Value of the operation, with what the libraries return outside its domain. -/
noncomputable def UnOp.val : UnOp → ℝ → XR
  | .sqrt, x => if 0 ≤ x then .fin (√x) else .nan
  | .log, x => if 0 < x then .fin (Real.log x) else if x = 0 then .inf else .nan
  | .exp, x => .fin (Real.exp x)
  | .atan, x => .fin (arctan x)
  | .atanh, x => if |x| < 1 then .fin (artanh x) else if |x| = 1 then .inf else .nan
  | .acos, x => if |x| ≤ 1 then .fin (arccos x) else .nan
  | .acosh, x => if 1 ≤ x then .fin (arcosh x) else .nan
  | .sin, x => .fin (Real.sin x)
  | .cos, x => .fin (Real.cos x)
  | .sq, x => .fin (x ^ 2)
  | .cube, x => .fin (x ^ 3)
  | .powc c, x => if 0 < x then .fin (x ^ c) else if x = 0 then (if 0 < c then .fin 0 else .inf) else .nan

/-- The factor by which the operation multiplies a derivative passing through it: `1 / (2 * result)`, `1 / x`,
`result`, `1 / (1 + x**2)`, `1 / (1 - x**2)`, `-rsqrt(1 - x**2)`, `rsqrt(x**2 - 1)`, `cos`, `-sin`, `2 * x`, `3 * x**2`,
`c * x ** (c - 1)`. -/
noncomputable def UnOp.coef : UnOp → ℝ → XR
  | .sqrt, x => if 0 < x then .fin (1 / (2 * √x)) else if x = 0 then .inf else .nan
  | .log, x => if x = 0 then .inf else .fin (1 / x)
  | .exp, x => .fin (Real.exp x)
  | .atan, x => .fin (1 / (1 + x ^ 2))
  | .atanh, x => if 1 - x ^ 2 = 0 then .inf else .fin (1 / (1 - x ^ 2))
  | .acos, x => if 0 < 1 - x ^ 2 then .fin (-(1 / √(1 - x ^ 2))) else if 1 - x ^ 2 = 0 then .inf else .nan
  | .acosh, x => if 0 < x ^ 2 - 1 then .fin (1 / √(x ^ 2 - 1)) else if x ^ 2 - 1 = 0 then .inf else .nan
  | .sin, x => .fin (Real.cos x)
  | .cos, x => .fin (-Real.sin x)
  | .sq, x => .fin (2 * x)
  | .cube, x => .fin (3 * x ^ 2)
  | .powc c, x => if 0 < x then .fin (c * x ^ (c - 1)) else
      if x = 0 then (if 1 < c then .fin 0 else if c = 1 then .fin 1 else if c = 0 then .fin 0 else .inf) else .nan

/-- `a ** b` with both computed.  At base zero the libraries agree for a positive exponent. -/
noncomputable def XR.pow : XR → XR → XR
  | .nan, _ => .nan
  | _, .nan => .nan
  | .fin a, .fin b => if 0 < a then .fin (a ^ b) else if a = 0 ∧ 0 < b then .fin 0 else .unk
  | _, _ => .unk

/-- Factor of the base: `b * a ** (b - 1)`. -/
noncomputable def XR.powBase : XR → XR → XR
  | .nan, _ => .nan
  | _, .nan => .nan
  | .fin a, .fin b => if 0 < a then .fin (b * a ^ (b - 1)) else
      if a = 0 ∧ 0 < b then (if 1 < b then .fin 0 else if b = 1 then .fin 1 else .inf) else .unk
  | _, _ => .unk

/-- Factor of the exponent: `a ** b * log(a)`, replaced by zero at base zero. -/
noncomputable def XR.powExp : XR → XR → XR
  | .nan, _ => .nan
  | _, .nan => .nan
  | .fin a, .fin b => if 0 < a then .fin (a ^ b * Real.log a) else if a = 0 ∧ 0 < b then .fin 0 else .unk
  | _, _ => .unk

/-- Comparisons used as the condition of `where`. -/
inductive Cmp
  | lt | le | eq

/-- Outcome of a comparison; NaN compares false. -/
noncomputable def Cmp.test : Cmp → XR → XR → Option Bool
  | _, .nan, _ => some false
  | _, _, .nan => some false
  | .lt, .fin a, .fin b => some (decide (a < b))
  | .le, .fin a, .fin b => some (decide (a ≤ b))
  | .eq, .fin a, .fin b => some (decide (a = b))
  | _, _, _ => none

/-- Programs with `n` variables. -/
inductive Ex : ℕ → Type
  | var {n : ℕ} (i : Fin n) : Ex n
  | const {n : ℕ} (c : ℝ) : Ex n
  | add {n : ℕ} (a b : Ex n) : Ex n
  | sub {n : ℕ} (a b : Ex n) : Ex n
  | mul {n : ℕ} (a b : Ex n) : Ex n
  | div {n : ℕ} (a b : Ex n) : Ex n
  | neg {n : ℕ} (a : Ex n) : Ex n
  | pow {n : ℕ} (a b : Ex n) : Ex n
  | un {n : ℕ} (u : UnOp) (a : Ex n) : Ex n
  /-- `backend.clamp(a, min=c)` -/
  | clampMin {n : ℕ} (a : Ex n) (c : ℝ) : Ex n
  /-- `backend.clamp(a, max=c)` -/
  | clampMax {n : ℕ} (a : Ex n) (c : ℝ) : Ex n
  /-- `backend.where(a <op> b, t, e)` -/
  | ite {n : ℕ} (op : Cmp) (a b t e : Ex n) : Ex n
  /-- `v = a; b`, where `b` sees `v` as variable 0 and the others shifted by one -/
  | letE {n : ℕ} (a : Ex n) (b : Ex (n + 1)) : Ex n
  /-- `backend.detach(a)`: backend_obj.py:496-500, `a.detach()` or `jax.lax.stop_gradient(a)` -/
  | detach {n : ℕ} (a : Ex n) : Ex n

namespace Ex

instance {n : ℕ} : Add (Ex n) := ⟨Ex.add⟩
instance {n : ℕ} : Sub (Ex n) := ⟨Ex.sub⟩
instance {n : ℕ} : Mul (Ex n) := ⟨Ex.mul⟩
instance {n : ℕ} : Div (Ex n) := ⟨Ex.div⟩
instance {n : ℕ} : Neg (Ex n) := ⟨Ex.neg⟩

/-- The value the program returns. -/
noncomputable def val : {n : ℕ} → Ex n → (Fin n → XR) → XR
  | _, var i, ρ => ρ i
  | _, const c, _ => .fin c
  | _, add a b, ρ => (a.val ρ).add (b.val ρ)
  | _, sub a b, ρ => (a.val ρ).add (b.val ρ).neg
  | _, mul a b, ρ => (a.val ρ).mul (b.val ρ)
  | _, div a b, ρ => (a.val ρ).div (b.val ρ)
  | _, neg a, ρ => (a.val ρ).neg
  | _, pow a b, ρ => (a.val ρ).pow (b.val ρ)
  | _, un u a, ρ => (a.val ρ).lift u.val
  | _, clampMin a c, ρ => (a.val ρ).lift fun x => .fin (max x c)
  | _, clampMax a c, ρ => (a.val ρ).lift fun x => .fin (min x c)
  | _, ite op a b t e, ρ =>
    match op.test (a.val ρ) (b.val ρ) with
    | some true => t.val ρ
    | some false => e.val ρ
    | none => .unk
  | _, letE a b, ρ => b.val (Fin.cons (α := fun _ => XR) (a.val ρ) ρ)
  | _, detach a, ρ => a.val ρ

/-- What `clamp` does to a derivative: `where(kept, g, 0)`. -/
noncomputable def mask (kept : ℝ → Prop) [DecidablePred kept] (x g : XR) : XR :=
  match x with
  | .fin x => if kept x then g else .fin 0
  | .nan => .fin 0
  | _ => .unk

/-- Forward mode: derivative of the program at `ρ` along `d`. -/
noncomputable def fwd : {n : ℕ} → Ex n → (Fin n → XR) → (Fin n → XR) → XR
  | _, var i, _, d => d i
  | _, const _, _, _ => .fin 0
  | _, add a b, ρ, d => (a.fwd ρ d).add (b.fwd ρ d)
  | _, sub a b, ρ, d => (a.fwd ρ d).add (b.fwd ρ d).neg
  | _, mul a b, ρ, d => ((a.fwd ρ d).mul (b.val ρ)).add ((a.val ρ).mul (b.fwd ρ d))
  | _, div a b, ρ, d => ((a.fwd ρ d).add ((b.fwd ρ d).mul ((a.val ρ).div (b.val ρ))).neg).div (b.val ρ)
  | _, neg a, ρ, d => (a.fwd ρ d).neg
  | _, pow a b, ρ, d => ((a.fwd ρ d).mul ((a.val ρ).powBase (b.val ρ))).add
      ((b.fwd ρ d).mul ((a.val ρ).powExp (b.val ρ)))
  | _, un u a, ρ, d => (a.fwd ρ d).mul ((a.val ρ).lift u.coef)
  | _, clampMin a c, ρ, d => mask (fun x => c ≤ x) (a.val ρ) (a.fwd ρ d)
  | _, clampMax a c, ρ, d => mask (fun x => x ≤ c) (a.val ρ) (a.fwd ρ d)
  | _, ite op a b t e, ρ, d =>
    match op.test (a.val ρ) (b.val ρ) with
    | some true => t.fwd ρ d
    | some false => e.fwd ρ d
    | none => .unk
  | _, letE a b, ρ, d => b.fwd (Fin.cons (α := fun _ => XR) (a.val ρ) ρ) (Fin.cons (α := fun _ => XR) (a.fwd ρ d) d)
  | _, detach _, _, _ => .fin 0

/-- Reverse mode: what the derivative `g` of the final result with respect to the program contributes to the derivative
with respect to each variable.  Both branches of `where` are visited, the one not selected with derivative zero. -/
noncomputable def rev : {n : ℕ} → Ex n → (Fin n → XR) → XR → Fin n → XR
  | _, var i, _, g, k => if k = i then g else .fin 0
  | _, const _, _, _, _ => .fin 0
  | _, add a b, ρ, g, k => (a.rev ρ g k).add (b.rev ρ g k)
  | _, sub a b, ρ, g, k => (a.rev ρ g k).add (b.rev ρ g.neg k)
  | _, mul a b, ρ, g, k => (a.rev ρ (g.mul (b.val ρ)) k).add (b.rev ρ (g.mul (a.val ρ)) k)
  | _, div a b, ρ, g, k => (a.rev ρ (g.div (b.val ρ)) k).add
      (b.rev ρ (g.neg.mul (((a.val ρ).div (b.val ρ)).div (b.val ρ))) k)
  | _, neg a, ρ, g, k => a.rev ρ g.neg k
  | _, pow a b, ρ, g, k => (a.rev ρ (g.mul ((a.val ρ).powBase (b.val ρ))) k).add
      (b.rev ρ (g.mul ((a.val ρ).powExp (b.val ρ))) k)
  | _, un u a, ρ, g, k => a.rev ρ (g.mul ((a.val ρ).lift u.coef)) k
  | _, clampMin a c, ρ, g, k => a.rev ρ (mask (fun x => c ≤ x) (a.val ρ) g) k
  | _, clampMax a c, ρ, g, k => a.rev ρ (mask (fun x => x ≤ c) (a.val ρ) g) k
  | _, ite op a b t e, ρ, g, k =>
    match op.test (a.val ρ) (b.val ρ) with
    | some true => (t.rev ρ g k).add (e.rev ρ (.fin 0) k)
    | some false => (t.rev ρ (.fin 0) k).add (e.rev ρ g k)
    | none => .unk
  | _, letE a b, ρ, g, k =>
    let ρ' := Fin.cons (α := fun _ => XR) (a.val ρ) ρ
    (b.rev ρ' g k.succ).add (a.rev ρ (b.rev ρ' g 0) k)
  | _, detach _, _, _, _ => .fin 0

end Ex

end Caustics
