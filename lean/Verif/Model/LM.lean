import Verif.Model.Py
import Mathlib.Algebra.Order.Field.Basic
import Mathlib.LinearAlgebra.Matrix.NonsingularInverse

/-!
Batched Levenberg-Marquardt, utils.py:1532-1635.

Parameters and data of one problem are vectors over a linearly ordered field.  The forward model `f`
and the function `jac` that `backend.jacfwd(f)` computes are arbitrary; that `jac` is the derivative of
`f` is only assumed where a theorem says so.  Rounding is not modelled.
-/

namespace Caustics

open Matrix

variable {K : Type*} [Field K] [LinearOrder K] {m n : ℕ}

/-- The inverse covariance: the `Cinv.ndim == 1` case or the matrix case. -/
inductive Weights (K : Type*) (m : ℕ) where
  | diag (w : Fin m → K)
  | full (W : Matrix (Fin m) (Fin m) K)

/-- utils.py:1540-1543 and 1567-1570. -/
def Weights.chi2 (C : Weights K m) (dY : Fin m → K) : K :=
  match C with
  | .diag w => ∑ i, dY i ^ 2 * w i
  | .full W => (dY ᵥ* W) ⬝ᵥ dY

/-- utils.py:1546-1549. -/
def Weights.grad (C : Weights K m) (J : Matrix (Fin m) (Fin n) K) (dY : Fin m → K) : Fin n → K :=
  match C with
  | .diag w => Jᵀ *ᵥ (fun i => dY i * w i)
  | .full W => (Jᵀ * W) *ᵥ dY

/-- utils.py:1552-1557. -/
def Weights.hess (C : Weights K m) (J : Matrix (Fin m) (Fin n) K) (L : K) : Matrix (Fin n) (Fin n) K :=
  (match C with
  | .diag w => Jᵀ * (Matrix.of fun i j => J i j * w i)
  | .full W => Jᵀ * W * J) + L • (1 : Matrix (Fin n) (Fin n) K)

/-- The comparison `num / |den| >= epsilon` (or `>`) as floating point evaluates it: with `den = 0` the
quotient is `+inf`, `-inf` or `nan` according to the sign of `num`. -/
def rhoGe (num den epsilon : K) : Bool :=
  if den = 0 then decide (0 < num) else decide (epsilon ≤ num / |den|)

/-- See `rhoGe`. -/
def rhoGt (num den epsilon : K) : Bool :=
  if den = 0 then decide (0 < num) else decide (epsilon < num / |den|)

/-- `backend.clamp(x, lo, hi)`. -/
def clampTo (x lo hi : K) : K := min (max x lo) hi

/-- utils.py:1532-1579.  `none`: `linalg.solve` raises because the matrix is singular. -/
noncomputable def lmStep (f : (Fin n → K) → (Fin m → K)) (jac : (Fin n → K) → Matrix (Fin m) (Fin n) K)
    (Lup Ldn epsilon L_min L_max : K) (X : Fin n → K) (Y : Fin m → K) (Cinv : Weights K m) (L : K) :
    Option ((Fin n → K) × K × K) :=
  let dY := Y - f X
  let J := jac X
  let chi2 := Cinv.chi2 dY
  let grad := Cinv.grad J dY
  let hess := Cinv.hess J L
  if hess.det = 0 then none
  else
    let h := hess⁻¹ *ᵥ grad
    let chi2_new := Cinv.chi2 (Y - f (X + h))
    let expected := h ⬝ᵥ (hess *ᵥ h) + 2 * (h ⬝ᵥ grad)
    let ge := rhoGe (chi2 - chi2_new) expected epsilon
    let gt := rhoGt (chi2 - chi2_new) expected epsilon
    some (if ge then X + h else X,
      clampTo (if ge then L / Ldn else L * Lup) L_min L_max,
      if gt then chi2_new else chi2)

/-- The loop of utils.py:1617-1633 with `k` iterations to go; a batch is a function of the problem
index.  The last component is what the variable `C` holds, in the beginning the covariance. -/
def lmLoop {B : ℕ} {A : Type*} (step : Fin B → (Fin n → K) → K → Option ((Fin n → K) × K × K))
    (chi : (Fin B → K) → A) (stopping L_max : K) (k : ℕ)
    (X : Fin B → Fin n → K) (L : Fin B → K) (C : A) :
    Option ((Fin B → Fin n → K) × (Fin B → K) × A) :=
  match k with
  | 0 => some (X, L, C)
  | k + 1 =>
    if h : ∀ b, (step b (X b) (L b)).isSome then
      let r := fun b => (step b (X b) (L b)).get (h b)
      let Xnew := fun b => (r b).1
      let L := fun b => (r b).2.1
      let C := chi fun b => (r b).2.2
      if (∀ b i, |Xnew b i - X b i| < stopping) ∧
          B < 3 * (Finset.univ.filter fun b => L b < 1 / 100).card then some (X, L, C)
      else if ∀ b, L_max ≤ L b then some (X, L, C)
      else lmLoop step chi stopping L_max k Xnew L C
    else none

/-- The third value `batch_lm` returns. -/
inductive LMThird (K : Type*) (B m : ℕ) where
  /-- chi-square values -/
  | chi2 (c : Fin B → K)
  /-- the covariance, when no iteration was made -/
  | cov (C : Fin B → Weights K m)

/-- utils.py:1582-1635 after the check of the batch sizes, with the covariance given through its
inverse `Cinv` (so `1 / C` and `linalg.inv(C)` are not modelled). -/
noncomputable def batchLm {B : ℕ} (f : (Fin n → K) → (Fin m → K)) (jac : (Fin n → K) → Matrix (Fin m) (Fin n) K)
    (Lup Ldn epsilon L_min L_max stopping : K) (max_iter : ℕ) (X : Fin B → Fin n → K)
    (Y : Fin B → Fin m → K) (Cinv : Fin B → Weights K m) (L : K) :
    Option ((Fin B → Fin n → K) × (Fin B → K) × LMThird K B m) :=
  lmLoop (fun b x l => lmStep f jac Lup Ldn epsilon L_min L_max x (Y b) (Cinv b) l) .chi2
    stopping L_max max_iter X (fun _ => L) (.cov Cinv)

end Caustics
