import Verif.Model.AutoDiffPrograms

/-!
Derivatives of derivatives: `backend.jacfwd` (backend_obj.py:416-420, `torch.func.jacfwd` or `jax.jacfwd`) turns a
program into the program that computes its Jacobian, and whoever differentiates a model that calls it differentiates
that program.  The lens methods that do so are lenses/base.py:970-1048 (thin), 467-551 (thick), 84-106 (`shear`) and
lenses/utils.py:8-72 (magnification).

`Ex.tangent` writes down the program forward mode executes, operation by operation, with the factors of `UnOp.coef`,
`XR.powBase` and `XR.powExp`.  Simplification: a value that forward mode computes once and uses in the result and in the
derivative is written twice.  `backend.abs` is `where(x < 0, -x, x)`.
-/

namespace Caustics

namespace Ex

/-- The program with its variables renamed. -/
def ren : {n m : ℕ} → Ex n → (Fin n → Fin m) → Ex m
  | _, _, var i, p => var (p i)
  | _, _, const c, _ => const c
  | _, _, add a b, p => add (a.ren p) (b.ren p)
  | _, _, sub a b, p => sub (a.ren p) (b.ren p)
  | _, _, mul a b, p => mul (a.ren p) (b.ren p)
  | _, _, div a b, p => div (a.ren p) (b.ren p)
  | _, _, neg a, p => neg (a.ren p)
  | _, _, pow a b, p => pow (a.ren p) (b.ren p)
  | _, _, un u a, p => un u (a.ren p)
  | _, _, clampMin a c, p => clampMin (a.ren p) c
  | _, _, clampMax a c, p => clampMax (a.ren p) c
  | _, _, ite op a b t e, p => ite op (a.ren p) (b.ren p) (t.ren p) (e.ren p)
  | _, _, letE a b, p => letE (a.ren p) (b.ren (Fin.cases 0 fun i => (p i).succ))
  | _, _, detach a, p => detach (a.ren p)

/-- The factor of `UnOp.coef`, as a program applied to `a`. -/
noncomputable def coefEx {n : ℕ} : UnOp → Ex n → Ex n
  | .sqrt, a => const 1 / (const 2 * un .sqrt a)
  | .log, a => const 1 / a
  | .exp, a => un .exp a
  | .atan, a => const 1 / (const 1 + un .sq a)
  | .atanh, a => const 1 / (const 1 - un .sq a)
  | .acos, a => -(const 1 / un .sqrt (const 1 - un .sq a))
  | .acosh, a => const 1 / un .sqrt (un .sq a - const 1)
  | .sin, a => un .cos a
  | .cos, a => -un .sin a
  | .sq, a => const 2 * a
  | .cube, a => const 3 * un .sq a
  | .powc c, a => const c * un (.powc (c - 1)) a

/-- Where the derivative of a variable is found: another variable, or a number. -/
abbrev Dual (m : ℕ) := Fin m ⊕ ℝ

/-- The same under one more variable. -/
def Dual.shift {m : ℕ} : Dual m → Dual (m + 1)
  | .inl j => .inl j.succ
  | .inr c => .inr c

/-- The program forward mode executes for the derivative of a program.  Variable `i` is variable `p i` of the new program
and its derivative is `t i`. -/
noncomputable def tangent : {n m : ℕ} → Ex n → (Fin n → Fin m) → (Fin n → Dual m) → Ex m
  | _, _, var i, _, t => match t i with
    | .inl j => var j
    | .inr c => const c
  | _, _, const _, _, _ => const 0
  | _, _, add a b, p, t => a.tangent p t + b.tangent p t
  | _, _, sub a b, p, t => a.tangent p t - b.tangent p t
  | _, _, mul a b, p, t => a.tangent p t * b.ren p + a.ren p * b.tangent p t
  | _, _, div a b, p, t => (a.tangent p t - b.tangent p t * (a.ren p / b.ren p)) / b.ren p
  | _, _, neg a, p, t => -a.tangent p t
  | _, _, pow a b, p, t => a.tangent p t * (b.ren p * pow (a.ren p) (b.ren p - const 1))
      + b.tangent p t * (pow (a.ren p) (b.ren p) * un .log (a.ren p))
  | _, _, un u a, p, t => a.tangent p t * coefEx u (a.ren p)
  | _, _, clampMin a c, p, t => ite .le (const c) (a.ren p) (a.tangent p t) (const 0)
  | _, _, clampMax a c, p, t => ite .le (a.ren p) (const c) (a.tangent p t) (const 0)
  | _, _, ite op a b f e, p, t => ite op (a.ren p) (b.ren p) (f.tangent p t) (e.tangent p t)
  | _, _, letE a b, p, t => letE (a.ren p) (letE ((a.tangent p t).ren Fin.succ)
      (b.tangent (Fin.cases 1 fun i => (p i).succ.succ) (Fin.cases (.inl 0) fun i => (t i).shift.shift)))
  | _, _, detach _, _, _ => const 0

/-- One column of `jacfwd`: the derivative with respect to variable `j`. -/
noncomputable def col {n : ℕ} (e : Ex n) (j : Fin n) : Ex n :=
  e.tangent id fun i => .inr (if i = j then 1 else 0)

/-- The program with the number `c` added to variable `j`. -/
def moved {n : ℕ} (e : Ex n) (j : Fin n) (c : ℝ) : Ex n :=
  letE (var j + const c) (e.ren fun i => if i = j then 0 else i.succ)

end Ex

open Ex

/-- A 2x2 matrix of programs, row by row. -/
structure Mat22 (n : ℕ) where
  a00 : Ex n
  a01 : Ex n
  a10 : Ex n
  a11 : Ex n

/-- lenses/base.py:970-989 `_jacobian_deflection_angle_autograd` (thick: 467-487), one position; the deflection is the
programs `ax`, `ay` and the position is the first two variables. -/
noncomputable def jacDeflection {n : ℕ} (ax ay : Ex (n + 2)) : Mat22 (n + 2) :=
  ⟨ax.col 0, ax.col 1, ay.col 0, ay.col 1⟩

/-- lenses/base.py:1035-1048 `_jacobian_lens_equation_autograd` (thick: 538-551). -/
noncomputable def jacLensAutograd {n : ℕ} (ax ay : Ex (n + 2)) : Mat22 (n + 2) :=
  let J := jacDeflection ax ay
  ⟨const 1 - detach J.a00, const 0 - detach J.a01, const 0 - detach J.a10, const 1 - detach J.a11⟩

/-- lenses/base.py:946-968 `_jacobian_deflection_angle_finitediff` at a pixel that is not on the edge of the grid: its
neighbours are one pixel scale away. -/
noncomputable def jacDeflectionFinite {n : ℕ} (ps : ℝ) (ax ay : Ex (n + 2)) : Mat22 (n + 2) :=
  let d := fun (e : Ex (n + 2)) (j : Fin (n + 2)) => (e.moved j ps - e.moved j (-ps)) / const (2 * ps)
  ⟨d ax 0, d ax 1, d ay 0, d ay 1⟩

/-- lenses/base.py:1019-1033 `_jacobian_lens_equation_finitediff`. -/
noncomputable def jacLensFinite {n : ℕ} (ps : ℝ) (ax ay : Ex (n + 2)) : Mat22 (n + 2) :=
  let J := jacDeflectionFinite ps ax ay
  ⟨const 1 - J.a00, const 0 - J.a01, const 0 - J.a10, const 1 - J.a11⟩

/-- lenses/base.py:96-106 `shear`, first component, from the Jacobian of the lens equation. -/
noncomputable def shear1 {n : ℕ} (A : Mat22 n) : Ex n :=
  const 0.5 * ((const 0.5 * (A.a00 + A.a11) * const 1 - A.a00) - (const 0.5 * (A.a00 + A.a11) * const 1 - A.a11))

/-- Second component. -/
noncomputable def shear2 {n : ℕ} (A : Mat22 n) : Ex n := const 0.5 * (A.a00 + A.a11) * const 0 - A.a01

/-- lenses/utils.py:42-72 `pixel_magnification` of `raytrace` (lenses/base.py:826-863: `x - ax, y - ay`). -/
noncomputable def pixelMagnificationEx {n : ℕ} (ax ay : Ex (n + 2)) : Ex (n + 2) :=
  let bx : Ex (n + 2) := var 0 - ax
  let b : Ex (n + 2) := var 1 - ay
  letE (bx.col 0 * b.col 1 - bx.col 1 * b.col 0) (const 1 / ite .lt (var 0) (const 0) (-var 0) (var 0))

/-- lenses/func/external_shear.py:56-57 with variables `x, y, x0, y0, gamma_1, gamma_2`. -/
def extShearX : Ex 6 := letE (v 0 - v 2) (letE (v 2 - v 4) (v 6 * v 1 + v 7 * v 0))

/-- lenses/func/external_shear.py:58. -/
def extShearY : Ex 6 := letE (v 0 - v 2) (letE (v 2 - v 4) (v 7 * v 1 - v 6 * v 0))

/-- The program at a fixed position. -/
def atPosition {n : ℕ} (x y : ℝ) (e : Ex (n + 2)) : Ex n := letE (const y) (letE (const x) e)

/-- Sum of squared differences between the shear of a lens and measured shears: positions with the two components. -/
noncomputable def shearLoss {n : ℕ} (A : Mat22 (n + 2)) : List ((ℝ × ℝ) × ℝ × ℝ) → Ex n
  | [] => const 0
  | (p, g) :: l => un .sq (atPosition p.1 p.2 (shear1 A) - const g.1)
      + un .sq (atPosition p.1 p.2 (shear2 A) - const g.2) + shearLoss A l

end Caustics
