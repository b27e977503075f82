import Verif.Model.LM
import Mathlib.Tactic.Linarith
import Mathlib.Tactic.LinearCombination
import Mathlib.Tactic.Positivity
import Mathlib.Tactic.FieldSimp
import Mathlib.Tactic.NormNum
import Mathlib.LinearAlgebra.Matrix.ToLinearEquiv
import Mathlib.Algebra.Order.BigOperators.Ring.Finset

/-! C35-C37: Levenberg-Marquardt. -/

namespace Caustics

open Matrix

variable {K : Type*} [Field K] [LinearOrder K] [IsStrictOrderedRing K] {m n : ℕ}

section lemmas

/-- An accepted ratio means an improvement of at least `epsilon` times the expected one. -/
theorem rhoGe_imp {num den eps : K} (he : 0 ≤ eps) (h : rhoGe num den eps = true) :
    eps * |den| ≤ num := by
  unfold rhoGe at h
  split at h
  · rename_i hd
    rw [decide_eq_true_eq] at h
    rw [hd, abs_zero, mul_zero]; exact h.le
  · rename_i hd
    rw [decide_eq_true_eq, le_div_iff₀ (abs_pos.2 hd)] at h
    exact h

theorem rhoGe_pos {num den eps : K} (he : 0 < eps) (h : rhoGe num den eps = true) : 0 < num := by
  unfold rhoGe at h
  split at h
  · rwa [decide_eq_true_eq] at h
  · rename_i hd
    rw [decide_eq_true_eq, le_div_iff₀ (abs_pos.2 hd)] at h
    exact lt_of_lt_of_le (mul_pos he (abs_pos.2 hd)) h

theorem rhoGt_imp_ge {num den eps : K} (h : rhoGt num den eps = true) : rhoGe num den eps = true := by
  unfold rhoGt at h
  unfold rhoGe
  split
  · rename_i hd; rwa [if_pos hd] at h
  · rename_i hd
    rw [if_neg hd, decide_eq_true_eq] at h
    rw [decide_eq_true_eq]; exact h.le

theorem clampTo_mem {x lo hi : K} (h : lo ≤ hi) : lo ≤ clampTo x lo hi ∧ clampTo x lo hi ≤ hi :=
  ⟨le_min (le_max_right _ _) h, min_le_right _ _⟩

variable {f : (Fin n → K) → (Fin m → K)} {jac : (Fin n → K) → Matrix (Fin m) (Fin n) K}
  {Lup Ldn eps L_min L_max : K}

/-- An invariant of the single problems is an invariant of the loop. -/
theorem lmLoop_inv {B : ℕ} {A : Type*}
    {step : Fin B → (Fin n → K) → K → Option ((Fin n → K) × K × K)} {chi : (Fin B → K) → A}
    {stopping Lm : K} (P : Fin B → (Fin n → K) → Prop)
    (hP : ∀ b x l r, P b x → step b x l = some r → P b r.1) (k : ℕ) :
    ∀ (X : Fin B → Fin n → K) (L : Fin B → K) (C : A) (X' : Fin B → Fin n → K) (L' : Fin B → K) (C' : A),
      (∀ b, P b (X b)) → lmLoop step chi stopping Lm k X L C = some (X', L', C') → ∀ b, P b (X' b) := by
  induction k with
  | zero =>
    intro X L C X' L' C' h0 h
    simp only [lmLoop, Option.some.injEq, Prod.mk.injEq] at h
    rw [← h.1]; exact h0
  | succ k ih =>
    intro X L C X' L' C' h0 h
    unfold lmLoop at h
    split at h
    · rename_i hs
      simp only at h
      split at h
      · simp only [Option.some.injEq, Prod.mk.injEq] at h
        rw [← h.1]; exact h0
      · split at h
        · simp only [Option.some.injEq, Prod.mk.injEq] at h
          rw [← h.1]; exact h0
        · exact ih _ _ _ _ _ _ (fun b => hP b _ _ _ (h0 b) (Option.some_get (hs b)).symm) h
    · cases h

/-- The same for the damping parameter, which is updated even when the loop stops. -/
theorem lmLoop_invL {B : ℕ} {A : Type*}
    {step : Fin B → (Fin n → K) → K → Option ((Fin n → K) × K × K)} {chi : (Fin B → K) → A}
    {stopping Lm : K} (P : K → Prop)
    (hP : ∀ b x l r, step b x l = some r → P r.2.1) (k : ℕ) :
    ∀ (X : Fin B → Fin n → K) (L : Fin B → K) (C : A) (X' : Fin B → Fin n → K) (L' : Fin B → K) (C' : A),
      ((∀ b, P (L b)) ∨ 0 < k) → lmLoop step chi stopping Lm k X L C = some (X', L', C') →
      ∀ b, P (L' b) := by
  induction k with
  | zero =>
    intro X L C X' L' C' h0 h
    simp only [lmLoop, Option.some.injEq, Prod.mk.injEq] at h
    rw [← h.2.1]; exact h0.resolve_right (lt_irrefl 0)
  | succ k ih =>
    intro X L C X' L' C' h0 h
    unfold lmLoop at h
    split at h
    · rename_i hs
      have hL : ∀ b, P ((step b (X b) (L b)).get (hs b)).2.1 :=
        fun b => hP b _ _ _ (Option.some_get (hs b)).symm
      simp only at h
      split at h
      · simp only [Option.some.injEq, Prod.mk.injEq] at h
        rw [← h.2.1]; exact hL
      · split at h
        · simp only [Option.some.injEq, Prod.mk.injEq] at h
          rw [← h.2.1]; exact hL
        · exact ih _ _ _ _ _ _ (Or.inl hL) h
    · cases h

end lemmas

/-! ### C35 -/

section
variable {f : (Fin n → K) → (Fin m → K)} {jac : (Fin n → K) → Matrix (Fin m) (Fin n) K}
  {Lup Ldn eps L_min L_max : K}

/-- One step: either the parameters are unchanged, or chi-square is strictly smaller; the reported
value is never above the incoming chi-square; the damping parameter is in range.  For any model
function, any (even wrong) Jacobian, any weights. -/
theorem C35_step (he : 0 < eps) (hL : L_min ≤ L_max) {X X' : Fin n → K} {Y : Fin m → K}
    {C : Weights K m} {L L' c' : K}
    (h : lmStep f jac Lup Ldn eps L_min L_max X Y C L = some (X', L', c')) :
    (X' = X ∨ C.chi2 (Y - f X') < C.chi2 (Y - f X)) ∧ c' ≤ C.chi2 (Y - f X) ∧
      L_min ≤ L' ∧ L' ≤ L_max := by
  unfold lmStep at h
  simp only at h
  split at h
  · cases h
  · simp only [Option.some.injEq, Prod.mk.injEq] at h
    obtain ⟨rfl, rfl, rfl⟩ := h
    refine ⟨?_, ?_, clampTo_mem hL⟩
    · split
      · rename_i hge
        exact Or.inr (sub_pos.1 (rhoGe_pos he hge))
      · exact Or.inl rfl
    · split
      · rename_i hgt
        exact (sub_pos.1 (rhoGe_pos he (rhoGt_imp_ge hgt))).le
      · exact le_rfl

/-- The decrease of an accepted step is at least `epsilon` times what the code expects. -/
theorem C35_sufficient_decrease (he : 0 ≤ eps) {X X' : Fin n → K} {Y : Fin m → K}
    {C : Weights K m} {L L' c' : K}
    (h : lmStep f jac Lup Ldn eps L_min L_max X Y C L = some (X', L', c')) (hX : X' ≠ X) :
    eps * |(X' - X) ⬝ᵥ (C.hess (jac X) L *ᵥ (X' - X)) + 2 * ((X' - X) ⬝ᵥ C.grad (jac X) (Y - f X))| ≤
      C.chi2 (Y - f X) - C.chi2 (Y - f X') := by
  unfold lmStep at h
  simp only at h
  split at h
  · cases h
  · simp only [Option.some.injEq, Prod.mk.injEq] at h
    obtain ⟨rfl, -, -⟩ := h
    split at hX
    · rename_i hge
      simp only [hge, if_true, add_sub_cancel_left]
      exact rhoGe_imp he hge
    · exact absurd rfl hX

/-- After any number of iterations of `batch_lm`, for every problem of the batch: the parameters are
the starting ones or have a strictly smaller chi-square, so chi-square never increases; and after at
least one iteration the damping parameter is in range. -/
theorem C35_batch {B : ℕ} (he : 0 < eps) (hL : L_min ≤ L_max) {stopping L : K} {k : ℕ}
    {X X' : Fin B → Fin n → K} {Y : Fin B → Fin m → K} {C : Fin B → Weights K m} {L' : Fin B → K}
    {c' : LMThird K B m}
    (h : batchLm f jac Lup Ldn eps L_min L_max stopping k X Y C L = some (X', L', c')) (b : Fin B) :
    (X' b = X b ∨ (C b).chi2 (Y b - f (X' b)) < (C b).chi2 (Y b - f (X b))) ∧
      (0 < k → L_min ≤ L' b ∧ L' b ≤ L_max) := by
  constructor
  · refine lmLoop_inv (fun b x => x = X b ∨ (C b).chi2 (Y b - f x) < (C b).chi2 (Y b - f (X b)))
      (fun b x l r hx hs => ?_) k X _ _ X' L' c' (fun b => Or.inl rfl) h b
    obtain ⟨x', l', c''⟩ := r
    rcases (C35_step he hL hs).1 with h1 | h1
    · rw [h1]; exact hx
    · rcases hx with rfl | hx
      · exact Or.inr h1
      · exact Or.inr (h1.trans hx)
  · intro hk
    exact lmLoop_invL (fun l => L_min ≤ l ∧ l ≤ L_max)
      (fun b x l r hs => (C35_step he hL (X' := r.1) (L' := r.2.1) (c' := r.2.2) hs).2.2) k X _ _ X' L' c'
      (Or.inr hk) h b

end

/-! ### Matrix form -/

/-- Weights as a matrix. -/
def Weights.toMatrix : Weights K m → Matrix (Fin m) (Fin m) K
  | .diag w => Matrix.diagonal w
  | .full W => W

theorem Weights.chi2_eq (C : Weights K m) (d : Fin m → K) : C.chi2 d = d ⬝ᵥ (C.toMatrix *ᵥ d) := by
  cases C with
  | diag w =>
    simp only [Weights.chi2, Weights.toMatrix, dotProduct, mulVec_diagonal]
    exact Finset.sum_congr rfl fun i _ => by ring
  | full W => simp only [Weights.chi2, Weights.toMatrix]; rw [← dotProduct_mulVec]

theorem Weights.grad_eq (C : Weights K m) (J : Matrix (Fin m) (Fin n) K) (d : Fin m → K) :
    C.grad J d = Jᵀ *ᵥ (C.toMatrix *ᵥ d) := by
  cases C with
  | diag w =>
    simp only [Weights.grad, Weights.toMatrix]
    congr 1
    funext i
    rw [mulVec_diagonal, mul_comm]
  | full W => simp only [Weights.grad, Weights.toMatrix, mulVec_mulVec]

theorem Weights.hess_eq (C : Weights K m) (J : Matrix (Fin m) (Fin n) K) (L : K) :
    C.hess J L = Jᵀ * C.toMatrix * J + L • (1 : Matrix (Fin n) (Fin n) K) := by
  cases C with
  | diag w =>
    simp only [Weights.hess, Weights.toMatrix]
    rw [Matrix.mul_assoc]
    congr 2
    ext i j
    rw [diagonal_mul, of_apply, mul_comm]
  | full W => rfl

/-- Admissible weights: a symmetric positive semidefinite inverse covariance.  For the diagonal case
this is non-negativity of the entries. -/
def Weights.Psd (C : Weights K m) : Prop :=
  C.toMatrix.IsSymm ∧ ∀ v, 0 ≤ v ⬝ᵥ (C.toMatrix *ᵥ v)

theorem Weights.psd_diag {w : Fin m → K} (h : ∀ i, 0 ≤ w i) : (Weights.diag w).Psd := by
  refine ⟨by simp [Weights.toMatrix, Matrix.IsSymm], fun v => ?_⟩
  simp only [Weights.toMatrix, dotProduct, mulVec_diagonal]
  refine Finset.sum_nonneg fun i _ => ?_
  have := mul_nonneg (h i) (mul_self_nonneg (v i))
  linarith

theorem dot_self_pos {v : Fin n → K} (h : v ≠ 0) : 0 < v ⬝ᵥ v := by
  obtain ⟨i, hi⟩ := Function.ne_iff.1 h
  simp only [dotProduct]
  exact Finset.sum_pos' (fun i _ => mul_self_nonneg _) ⟨i, Finset.mem_univ i, by
    have := mul_self_pos.2 hi; simpa using this⟩

theorem hess_quad (C : Weights K m) (J : Matrix (Fin m) (Fin n) K) (L : K) (v : Fin n → K) :
    v ⬝ᵥ (C.hess J L *ᵥ v) = (J *ᵥ v) ⬝ᵥ (C.toMatrix *ᵥ (J *ᵥ v)) + L * (v ⬝ᵥ v) := by
  rw [Weights.hess_eq, add_mulVec, dotProduct_add, smul_mulVec, one_mulVec, dotProduct_smul, smul_eq_mul,
    ← mulVec_mulVec, ← mulVec_mulVec, dotProduct_mulVec, vecMul_transpose]

/-- With positive damping the system is always solvable. -/
theorem hess_det_ne {C : Weights K m} (hC : C.Psd) (J : Matrix (Fin m) (Fin n) K) {L : K} (hL : 0 < L) :
    (C.hess J L).det ≠ 0 := by
  intro h
  obtain ⟨v, hv, h0⟩ := Matrix.exists_mulVec_eq_zero_iff.2 h
  have h1 := hess_quad C J L v
  rw [h0, dotProduct_zero] at h1
  have h2 := hC.2 (J *ᵥ v)
  have h3 := mul_pos hL (dot_self_pos hv)
  linarith

/-! ### C36 -/

/-- Full claim: the reported chi-square belongs to the returned parameters. -/
def C36_statement : Prop :=
  ∀ (n m B : ℕ) (f : (Fin n → ℚ) → (Fin m → ℚ)) (jac : (Fin n → ℚ) → Matrix (Fin m) (Fin n) ℚ)
    (Lup Ldn eps L_min L_max stopping L : ℚ) (k : ℕ) (X X' : Fin B → Fin n → ℚ)
    (Y : Fin B → Fin m → ℚ) (C : Fin B → Weights ℚ m) (L' : Fin B → ℚ) (c : Fin B → ℚ),
    0 < eps → 0 < L_min → L_min ≤ L → L ≤ L_max → 1 < Lup → 1 < Ldn → 0 < stopping →
    batchLm f jac Lup Ldn eps L_min L_max stopping k X Y C L = some (X', L', .chi2 c) →
    ∀ b, c b = (C b).chi2 (Y b - f (X' b))

section
variable {f : (Fin n → K) → (Fin m → K)} {jac : (Fin n → K) → Matrix (Fin m) (Fin n) K}
  {Lup Ldn eps L_min L_max : K}

/-- What holds: the reported value lies between the chi-square of the returned parameters and that of
the parameters one further step would give (which the code has computed and dropped). -/
theorem C36_partial {B : ℕ} (he : 0 < eps) (hL : L_min ≤ L_max) {stopping L : K} {k : ℕ}
    {X X' : Fin B → Fin n → K} {Y : Fin B → Fin m → K} {C : Fin B → Weights K m} {L' : Fin B → K}
    {c : Fin B → K}
    (h : batchLm f jac Lup Ldn eps L_min L_max stopping k X Y C L = some (X', L', .chi2 c)) :
    ∃ X'' : Fin B → Fin n → K, ∀ b,
      (C b).chi2 (Y b - f (X'' b)) ≤ c b ∧
      ((c b ≤ (C b).chi2 (Y b - f (X' b)) ∧ ∃ l r, lmStep f jac Lup Ldn eps L_min L_max (X' b) (Y b) (C b) l
          = some (X'' b, r)) ∨ X'' b = X' b) := by
  -- a value reported by a step is at least the chi-square of the parameters it returns
  have hstep : ∀ b x l r, lmStep f jac Lup Ldn eps L_min L_max x (Y b) (C b) l = some r →
      (C b).chi2 (Y b - f r.1) ≤ r.2.2 := by
    intro b x l r hr
    unfold lmStep at hr
    simp only at hr
    split at hr
    · cases hr
    · simp only [Option.some.injEq] at hr
      subst hr
      simp only
      split
      · rename_i hge
        split
        · exact le_rfl
        · exact (sub_pos.1 (rhoGe_pos he hge)).le
      · rename_i hge
        split
        · rename_i hgt
          exact absurd (rhoGt_imp_ge hgt) hge
        · exact le_rfl
  have key : ∀ (k : ℕ) (X : Fin B → Fin n → K) (L : Fin B → K) (C0 : LMThird K B m),
      (∀ c, C0 = .chi2 c → ∀ b, (C b).chi2 (Y b - f (X b)) ≤ c b) →
      lmLoop (fun b x l => lmStep f jac Lup Ldn eps L_min L_max x (Y b) (C b) l) .chi2
        stopping L_max k X L C0 = some (X', L', .chi2 c) →
      ∃ X'' : Fin B → Fin n → K, ∀ b,
        (C b).chi2 (Y b - f (X'' b)) ≤ c b ∧
        ((c b ≤ (C b).chi2 (Y b - f (X' b)) ∧ ∃ l r, lmStep f jac Lup Ldn eps L_min L_max (X' b) (Y b) (C b) l
            = some (X'' b, r)) ∨ X'' b = X' b) := by
    intro k
    induction k with
    | zero =>
      intro X L C0 h0 h
      simp only [lmLoop, Option.some.injEq, Prod.mk.injEq] at h
      obtain ⟨rfl, -, h3⟩ := h
      exact ⟨X, fun b => ⟨h0 c h3 b, Or.inr rfl⟩⟩
    | succ k ih =>
      intro X L C0 h0 h
      unfold lmLoop at h
      split at h
      · rename_i hs
        have stop : some (X, (fun b => ((lmStep f jac Lup Ldn eps L_min L_max (X b) (Y b) (C b) (L b)).get
              (hs b)).2.1), LMThird.chi2 (m := m) fun b =>
              ((lmStep f jac Lup Ldn eps L_min L_max (X b) (Y b) (C b) (L b)).get (hs b)).2.2) =
              some (X', L', .chi2 c) → ∃ X'' : Fin B → Fin n → K, ∀ b,
            (C b).chi2 (Y b - f (X'' b)) ≤ c b ∧
            ((c b ≤ (C b).chi2 (Y b - f (X' b)) ∧ ∃ l r, lmStep f jac Lup Ldn eps L_min L_max (X' b) (Y b)
              (C b) l = some (X'' b, r)) ∨ X'' b = X' b) := by
          intro h
          simp only [Option.some.injEq, Prod.mk.injEq, LMThird.chi2.injEq] at h
          obtain ⟨rfl, -, rfl⟩ := h
          refine ⟨fun b => ((lmStep f jac Lup Ldn eps L_min L_max (X b) (Y b) (C b) (L b)).get (hs b)).1,
            fun b => ⟨hstep b _ _ _ (Option.some_get (hs b)).symm, Or.inl ⟨?_, L b, _,
              (Option.some_get (hs b)).symm⟩⟩⟩
          exact (C35_step he hL (Option.some_get (hs b)).symm).2.1
        simp only at h
        split at h
        · exact stop h
        · split at h
          · exact stop h
          · refine ih _ _ _ (fun c' hc' b => ?_) h
            simp only [LMThird.chi2.injEq] at hc'
            rw [← hc']
            exact hstep b _ _ _ (Option.some_get (hs b)).symm
      · cases h
  exact key k X _ _ (fun c hc => by cases hc) h

end

/-! The witness: one problem, one parameter, `f x = x`, data `0`. -/

/-- A vector with one entry. -/
def vec1 (a : ℚ) : Fin 1 → ℚ := fun _ => a

theorem lmStep_id (a l : ℚ) (hl : 0 < l) (ha : a ≠ 0) :
    lmStep (n := 1) (m := 1) (fun x => x) (fun _ => 1) 9 11 (1 / 10) (1 / 10 ^ 9) (10 ^ 9) (vec1 a) (vec1 0)
      (.diag (vec1 1)) l =
    some (vec1 (a * (l / (1 + l))), clampTo (l / 11) (1 / 10 ^ 9) (10 ^ 9), (a * (l / (1 + l))) ^ 2) := by
  have h1 : (1 + l) ≠ 0 := by positivity
  have hh : (Weights.diag (vec1 1)).hess (1 : Matrix (Fin 1) (Fin 1) ℚ) l = (1 + l) • 1 := by
    rw [Weights.hess_eq, add_smul, one_smul]
    congr 1
    ext i j
    fin_cases i; fin_cases j
    simp [Weights.toMatrix, vec1]
  have hdet : ((1 + l) • (1 : Matrix (Fin 1) (Fin 1) ℚ)).det = 1 + l := by simp
  have hinv : ((1 + l) • (1 : Matrix (Fin 1) (Fin 1) ℚ))⁻¹ = (1 + l)⁻¹ • 1 := by
    rw [Matrix.inv_eq_right_inv]
    rw [smul_mul_smul_comm, mul_inv_cancel₀ h1, one_smul, mul_one]
  have hg : (Weights.diag (vec1 1)).grad (1 : Matrix (Fin 1) (Fin 1) ℚ) (vec1 0 - vec1 a) = vec1 (-a) := by
    funext i
    simp [Weights.grad, vec1]
  unfold lmStep
  simp only [hh, hdet, if_neg h1, hinv, hg]
  have hstep : ((1 + l)⁻¹ • (1 : Matrix (Fin 1) (Fin 1) ℚ)) *ᵥ vec1 (-a) = vec1 (-a / (1 + l)) := by
    rw [smul_mulVec, one_mulVec]
    funext i
    simp only [vec1, Pi.smul_apply, smul_eq_mul]; ring
  have hX : vec1 a + vec1 (-a / (1 + l)) = vec1 (a * (l / (1 + l))) := by
    funext i
    simp only [vec1, Pi.add_apply]; field_simp; ring
  simp only [hstep, hX]
  have hc : ∀ t : ℚ, (Weights.diag (vec1 1)).chi2 (vec1 0 - vec1 t) = t ^ 2 := by
    intro t; simp [Weights.chi2, vec1]
  have hexp : (vec1 (-a / (1 + l)) ⬝ᵥ (((1 + l) • (1 : Matrix (Fin 1) (Fin 1) ℚ)) *ᵥ vec1 (-a / (1 + l))) +
      2 * (vec1 (-a / (1 + l)) ⬝ᵥ vec1 (-a))) = 3 * (a ^ 2 / (1 + l)) := by
    rw [smul_mulVec, one_mulVec]
    simp only [vec1, dotProduct, Finset.univ_unique, Finset.sum_singleton, Pi.smul_apply, smul_eq_mul]
    field_simp; ring
  simp only [hc, hexp]
  have hpos : 0 < 3 * (a ^ 2 / (1 + l)) := by positivity
  have hrho : (a ^ 2 - (a * (l / (1 + l))) ^ 2) / |3 * (a ^ 2 / (1 + l))| = (1 + 2 * l) / (3 * (1 + l)) := by
    rw [abs_of_pos hpos]; field_simp; ring
  have hlt : (1 / 10 : ℚ) < (1 + 2 * l) / (3 * (1 + l)) := by
    rw [lt_div_iff₀ (by positivity)]; linarith
  have hge : rhoGe (a ^ 2 - (a * (l / (1 + l))) ^ 2) (3 * (a ^ 2 / (1 + l))) (1 / 10) = true := by
    unfold rhoGe; rw [if_neg hpos.ne', hrho, decide_eq_true_eq]; exact hlt.le
  have hgt : rhoGt (a ^ 2 - (a * (l / (1 + l))) ^ 2) (3 * (a ^ 2 / (1 + l))) (1 / 10) = true := by
    unfold rhoGt; rw [if_neg hpos.ne', hrho, decide_eq_true_eq]; exact hlt
  simp only [hge, hgt, if_true]

/-- With all default settings and the starting point `1e-5` (solution `0`): the second step is good
(it divides the error by twelve), is used for the reported chi-square, and is thrown away. -/
theorem C36_fails_value :
    batchLm (B := 1) (n := 1) (m := 1) (fun x => x) (fun _ => 1) 9 11 (1 / 10) (1 / 10 ^ 9) (10 ^ 9)
      (1 / 10 ^ 4) 50 (fun _ => vec1 (1 / 10 ^ 5)) (fun _ => vec1 0) (fun _ => .diag (vec1 1)) 1 =
    some (fun _ => vec1 (1 / 2 / 10 ^ 5), fun _ => 1 / 121, .chi2 fun _ => (1 / 24 / 10 ^ 5) ^ 2) := by
  unfold batchLm
  have e1 := lmStep_id (1 / 10 ^ 5) 1 (by norm_num) (by norm_num)
  rw [show (1 / 10 ^ 5 * (1 / (1 + 1)) : ℚ) = 1 / 2 / 10 ^ 5 by norm_num,
    show clampTo (1 / 11 : ℚ) (1 / 10 ^ 9) (10 ^ 9) = 1 / 11 by decide +kernel] at e1
  have e2 := lmStep_id (1 / 2 / 10 ^ 5) (1 / 11) (by norm_num) (by norm_num)
  rw [show (1 / 2 / 10 ^ 5 * (1 / 11 / (1 + 1 / 11)) : ℚ) = 1 / 24 / 10 ^ 5 by norm_num,
    show clampTo (1 / 11 / 11 : ℚ) (1 / 10 ^ 9) (10 ^ 9) = 1 / 121 by decide +kernel] at e2
  unfold lmLoop
  simp only [e1, Option.isSome_some, forall_const, dite_true, Option.get_some]
  rw [if_neg, if_neg]
  · unfold lmLoop
    simp only [e2, Option.isSome_some, forall_const, dite_true, Option.get_some]
    rw [if_pos]
    refine ⟨fun i => ?_, ?_⟩
    · norm_num [vec1, abs_lt]
    · norm_num
  · norm_num
  · norm_num

theorem C36_fails : ¬ C36_statement := by
  intro h
  have := h 1 1 1 _ _ _ _ _ _ _ _ _ _ _ _ _ _ _ _ (by norm_num) (by norm_num) (by norm_num) (by norm_num)
    (by norm_num) (by norm_num) (by norm_num) C36_fails_value 0
  norm_num [Weights.chi2, vec1] at this

/-! ### C37 -/

section
variable {Lup Ldn eps L_min L_max : K}

/-- Chi-square of an affine model along a step `h` that solves the damped normal equations. -/
theorem lm_linear_drop {C : Weights K m} (hC : C.Psd) (A : Matrix (Fin m) (Fin n) K) (c : Fin m → K)
    (X : Fin n → K) (Y : Fin m → K) (L : K) (h : Fin n → K)
    (hh : C.hess A L *ᵥ h = C.grad A (Y - (A *ᵥ X + c))) :
    C.chi2 (Y - (A *ᵥ X + c)) - C.chi2 (Y - (A *ᵥ (X + h) + c)) =
      h ⬝ᵥ C.grad A (Y - (A *ᵥ X + c)) + L * (h ⬝ᵥ h) := by
  set d := Y - (A *ᵥ X + c) with hd
  have hd' : Y - (A *ᵥ (X + h) + c) = d - A *ᵥ h := by
    rw [hd, mulVec_add]; abel
  have hsym : ∀ u v : Fin m → K, u ⬝ᵥ (C.toMatrix *ᵥ v) = v ⬝ᵥ (C.toMatrix *ᵥ u) := by
    intro u v
    rw [dotProduct_mulVec, ← mulVec_transpose, hC.1, dotProduct_comm]
  have h1 : h ⬝ᵥ C.grad A d = (A *ᵥ h) ⬝ᵥ (C.toMatrix *ᵥ d) := by
    rw [Weights.grad_eq, dotProduct_mulVec, vecMul_transpose]
  have h2 : h ⬝ᵥ C.grad A d = (A *ᵥ h) ⬝ᵥ (C.toMatrix *ᵥ (A *ᵥ h)) + L * (h ⬝ᵥ h) := by
    rw [← hh, hess_quad]
  rw [hd']
  clear_value d
  rw [Weights.chi2_eq, Weights.chi2_eq, mulVec_sub, sub_dotProduct, dotProduct_sub, dotProduct_sub,
    hsym d (A *ᵥ h)]
  linear_combination (-2) * h1 + h2

/-- For an affine model `f x = A x + c` with its own Jacobian, any number of parameters and data, any
positive semidefinite weights, positive damping and a non-zero gradient: the step is accepted for every
threshold up to one third (the default is 0.1), chi-square drops by the positive amount
`h·grad + L h·h`, and the reported chi-square is that of the new point. -/
theorem C37_linear_accepts {C : Weights K m} (hC : C.Psd) (A : Matrix (Fin m) (Fin n) K) (c : Fin m → K)
    (X : Fin n → K) (Y : Fin m → K) {L : K} (hL : 0 < L) (he : eps ≤ 1 / 3)
    (hg : C.grad A (Y - (A *ᵥ X + c)) ≠ 0) :
    ∃ h : Fin n → K, C.hess A L *ᵥ h = C.grad A (Y - (A *ᵥ X + c)) ∧
      lmStep (fun x => A *ᵥ x + c) (fun _ => A) Lup Ldn eps L_min L_max X Y C L =
        some (X + h, clampTo (L / Ldn) L_min L_max, C.chi2 (Y - (A *ᵥ (X + h) + c))) ∧
      C.chi2 (Y - (A *ᵥ (X + h) + c)) < C.chi2 (Y - (A *ᵥ X + c)) := by
  have hdet := hess_det_ne hC A hL
  set g := C.grad A (Y - (A *ᵥ X + c)) with hgd
  set h := (C.hess A L)⁻¹ *ᵥ g with hhd
  have hh : C.hess A L *ᵥ h = g := by
    rw [hhd, mulVec_mulVec, Matrix.mul_nonsing_inv _ (Ne.isUnit hdet), one_mulVec]
  have h0 : h ≠ 0 := by
    intro h0; rw [h0, mulVec_zero] at hh; exact hg hh.symm
  have hdrop := lm_linear_drop hC A c X Y L h hh
  rw [← hgd] at hdrop
  have hpos : 0 < h ⬝ᵥ g := by
    have := hess_quad C A L h
    rw [hh] at this
    have h2 := hC.2 (A *ᵥ h)
    have h3 := mul_pos hL (dot_self_pos h0)
    linarith
  have h3 := mul_pos hL (dot_self_pos h0)
  refine ⟨h, hh, ?_, by linarith⟩
  unfold lmStep
  simp only [if_neg hdet, ← hgd, ← hhd, hh]
  have hexp : h ⬝ᵥ g + 2 * (h ⬝ᵥ g) = 3 * (h ⬝ᵥ g) := by ring
  have hp3 : 0 < 3 * (h ⬝ᵥ g) := by linarith
  have hlt : eps < (h ⬝ᵥ g + L * (h ⬝ᵥ h)) / |3 * (h ⬝ᵥ g)| := by
    refine lt_of_le_of_lt he ?_
    rw [abs_of_pos hp3, lt_div_iff₀ hp3]
    linarith
  have hge : rhoGe (C.chi2 (Y - (A *ᵥ X + c)) - C.chi2 (Y - (A *ᵥ (X + h) + c)))
      (h ⬝ᵥ g + 2 * (h ⬝ᵥ g)) eps = true := by
    unfold rhoGe; rw [hexp, if_neg hp3.ne', hdrop, decide_eq_true_eq]; exact hlt.le
  have hgt : rhoGt (C.chi2 (Y - (A *ᵥ X + c)) - C.chi2 (Y - (A *ᵥ (X + h) + c)))
      (h ⬝ᵥ g + 2 * (h ⬝ᵥ g)) eps = true := by
    unfold rhoGt; rw [hexp, if_neg hp3.ne', hdrop, decide_eq_true_eq]; exact hlt
  simp only [hge, hgt, if_true]

/-- The ratio of actual to expected improvement the code computes for an affine model is always in
`(1/3, 2/3]` (a correct prediction would give 1), so with a threshold above two thirds every step of
every affine problem is rejected. -/
theorem C37_ratio {C : Weights K m} (hC : C.Psd) (A : Matrix (Fin m) (Fin n) K) (c : Fin m → K)
    (X : Fin n → K) (Y : Fin m → K) {L : K} (hL : 0 < L) (he : 2 / 3 < eps) :
    lmStep (fun x => A *ᵥ x + c) (fun _ => A) Lup Ldn eps L_min L_max X Y C L =
      some (X, clampTo (L * Lup) L_min L_max, C.chi2 (Y - (A *ᵥ X + c))) := by
  have hdet := hess_det_ne hC A hL
  set g := C.grad A (Y - (A *ᵥ X + c)) with hgd
  set h := (C.hess A L)⁻¹ *ᵥ g with hhd
  have hh : C.hess A L *ᵥ h = g := by
    rw [hhd, mulVec_mulVec, Matrix.mul_nonsing_inv _ (Ne.isUnit hdet), one_mulVec]
  have hdrop := lm_linear_drop hC A c X Y L h hh
  rw [← hgd] at hdrop
  have hq := hess_quad C A L h
  rw [hh] at hq
  have h2 := hC.2 (A *ᵥ h)
  have hexp : h ⬝ᵥ g + 2 * (h ⬝ᵥ g) = 3 * (h ⬝ᵥ g) := by ring
  have hge : rhoGe (C.chi2 (Y - (A *ᵥ X + c)) - C.chi2 (Y - (A *ᵥ (X + h) + c)))
      (h ⬝ᵥ g + 2 * (h ⬝ᵥ g)) eps = false := by
    unfold rhoGe
    rw [hexp, hdrop]
    by_cases h0 : h = 0
    · simp [h0]
    · have h3 := mul_pos hL (dot_self_pos h0)
      have hp3 : 0 < 3 * (h ⬝ᵥ g) := by linarith
      rw [if_neg hp3.ne', decide_eq_false_iff_not, not_le, abs_of_pos hp3, div_lt_iff₀ hp3]
      nlinarith
  have hgt : rhoGt (C.chi2 (Y - (A *ᵥ X + c)) - C.chi2 (Y - (A *ᵥ (X + h) + c)))
      (h ⬝ᵥ g + 2 * (h ⬝ᵥ g)) eps = false := by
    rw [Bool.eq_false_iff]
    intro hc
    rw [rhoGt_imp_ge hc] at hge
    cases hge
  unfold lmStep
  simp only [if_neg hdet, ← hgd, ← hhd, hh, hge, hgt]
  simp

/-- Where the step goes: if `x0` solves the weighted normal equations then the error after the step is
`L (JᵀWJ + L)⁻¹` applied to the error before, so it is a contraction when `JᵀWJ` is positive definite. -/
theorem C37_error {C : Weights K m} (hC : C.Psd) (A : Matrix (Fin m) (Fin n) K) (c : Fin m → K)
    (X x0 : Fin n → K) (Y : Fin m → K) {L : K} (hL : 0 < L) (he : eps ≤ 1 / 3)
    (hx0 : C.grad A (Y - (A *ᵥ x0 + c)) = 0)
    (hg : C.grad A (Y - (A *ᵥ X + c)) ≠ 0) {X' : Fin n → K} {r : K × K}
    (hs : lmStep (fun x => A *ᵥ x + c) (fun _ => A) Lup Ldn eps L_min L_max X Y C L = some (X', r)) :
    C.hess A L *ᵥ (X' - x0) = L • (X - x0) := by
  obtain ⟨h, hh, hstep, -⟩ := C37_linear_accepts (Lup := Lup) (Ldn := Ldn) (L_min := L_min)
    (L_max := L_max) hC A c X Y hL he hg
  rw [hs, Option.some.injEq, Prod.mk.injEq] at hstep
  rw [hstep.1]
  have h1 : C.grad A (Y - (A *ᵥ X + c)) = Aᵀ *ᵥ (C.toMatrix *ᵥ (A *ᵥ (x0 - X))) := by
    have : C.grad A (Y - (A *ᵥ X + c)) - C.grad A (Y - (A *ᵥ x0 + c)) =
        Aᵀ *ᵥ (C.toMatrix *ᵥ (A *ᵥ (x0 - X))) := by
      rw [Weights.grad_eq, Weights.grad_eq, ← mulVec_sub, ← mulVec_sub, mulVec_sub A]
      congr 2
      abel
    rw [hx0, sub_zero] at this
    exact this
  have h2 : C.hess A L *ᵥ (X - x0) = Aᵀ *ᵥ (C.toMatrix *ᵥ (A *ᵥ (X - x0))) + L • (X - x0) := by
    rw [Weights.hess_eq, add_mulVec, smul_mulVec, one_mulVec, ← mulVec_mulVec, ← mulVec_mulVec]
  rw [show X + h - x0 = (X - x0) + h by abel, mulVec_add, hh, h1, h2, ← neg_sub X x0, mulVec_neg,
    mulVec_neg, mulVec_neg]
  abel

/-- Consequence in numbers: the squared distance to the solution strictly decreases. -/
theorem C37_closer {C : Weights K m} (hC : C.Psd) (A : Matrix (Fin m) (Fin n) K) (c : Fin m → K)
    (X x0 : Fin n → K) (Y : Fin m → K) {L : K} (hL : 0 < L) (he : eps ≤ 1 / 3)
    (hx0 : C.grad A (Y - (A *ᵥ x0 + c)) = 0)
    (hg : C.grad A (Y - (A *ᵥ X + c)) ≠ 0) {X' : Fin n → K} {r : K × K}
    (hs : lmStep (fun x => A *ᵥ x + c) (fun _ => A) Lup Ldn eps L_min L_max X Y C L = some (X', r)) :
    (X' - x0) ⬝ᵥ (X' - x0) < (X - x0) ⬝ᵥ (X - x0) := by
  have h1 := C37_error hC A c X x0 Y hL he hx0 hg hs
  set u := X' - x0
  set v := X - x0
  have hne : u ≠ v := by
    intro huv
    obtain ⟨h, hh, hstep, hlt⟩ := C37_linear_accepts (Lup := Lup) (Ldn := Ldn) (L_min := L_min)
      (L_max := L_max) hC A c X Y hL he hg
    rw [hs, Option.some.injEq, Prod.mk.injEq] at hstep
    have : X' = X := sub_left_injective huv
    rw [← hstep.1, this] at hlt
    exact lt_irrefl _ hlt
  have h2 := congrArg (fun w => u ⬝ᵥ w) h1
  simp only [hess_quad, dotProduct_smul, smul_eq_mul] at h2
  have h3 := hC.2 (A *ᵥ u)
  have h4 : L * (u ⬝ᵥ u) ≤ L * (u ⬝ᵥ v) := by linarith
  have h5 : u ⬝ᵥ u ≤ u ⬝ᵥ v := le_of_mul_le_mul_left h4 hL
  have h6 := dot_self_pos (sub_ne_zero.2 hne)
  clear_value u v
  rw [sub_dotProduct, dotProduct_sub, dotProduct_sub, dotProduct_comm v u] at h6
  linarith

end

/-- A fit of a straight line through three points, two parameters. -/
example : ∃ X' r, lmStep (K := ℚ) (fun x => !![1, 0; 1, 1; 1, 2] *ᵥ x + 0) (fun _ => !![1, 0; 1, 1; 1, 2])
    9 11 (1 / 10) (1 / 10 ^ 9) (10 ^ 9) ![0, 0] ![1, 3, 4] (.diag ![1, 1, 2]) 1 = some (X', r) ∧
    X' ≠ ![0, 0] := by
  have hC : (Weights.diag (K := ℚ) ![1, 1, 2]).Psd := Weights.psd_diag (by decide +kernel)
  have hg : (Weights.diag (K := ℚ) ![1, 1, 2]).grad !![1, 0; 1, 1; 1, 2]
      (![1, 3, 4] - (!![1, 0; 1, 1; 1, 2] *ᵥ ![0, 0] + 0)) ≠ 0 := by decide +kernel
  obtain ⟨h, hh, hs, -⟩ := C37_linear_accepts (eps := 1 / 10) (Lup := 9) (Ldn := 11) (L_min := 1 / 10 ^ 9)
    (L_max := 10 ^ 9) hC !![1, 0; 1, 1; 1, 2] 0 ![0, 0] ![1, 3, 4] one_pos (by norm_num) hg
  refine ⟨_, _, hs, fun hX => ?_⟩
  have : h = 0 := add_eq_left.1 hX
  rw [this, mulVec_zero] at hh
  exact hg hh.symm

/-- A step that overshoots is rejected: `f x = x³` from `1` with the (wrong) Jacobian `-3`. -/
example : ∃ l, lmStep (K := ℚ) (n := 1) (m := 1) (fun x => fun i => x i ^ 3) (fun _ => fun _ _ => -3)
    9 11 (1 / 10) (1 / 10 ^ 9) (10 ^ 9) (vec1 1) (vec1 0) (.diag (vec1 1)) 1 = some (vec1 1, l, 1) := by
  have hh : (Weights.diag (vec1 1)).hess (fun _ _ => -3 : Matrix (Fin 1) (Fin 1) ℚ) 1 = (10 : ℚ) • 1 := by
    ext i j
    fin_cases i; fin_cases j
    simp [Weights.hess, vec1, Matrix.mul_apply]; norm_num [Matrix.transpose]
  have hinv : ((10 : ℚ) • (1 : Matrix (Fin 1) (Fin 1) ℚ))⁻¹ = (1 / 10 : ℚ) • 1 := by
    rw [Matrix.inv_eq_right_inv]
    rw [smul_mul_smul_comm, mul_one]; norm_num
  have hdet : ¬ ((10 : ℚ) • (1 : Matrix (Fin 1) (Fin 1) ℚ)).det = 0 := by simp
  unfold lmStep
  simp only [hh, if_neg hdet, hinv]
  refine ⟨clampTo (1 * 9) (1 / 10 ^ 9) (10 ^ 9), ?_⟩
  have hg : (Weights.diag (vec1 1)).grad (fun _ _ => -3 : Matrix (Fin 1) (Fin 1) ℚ)
      (vec1 0 - fun i => vec1 1 i ^ 3) = vec1 3 := by
    funext i; simp [Weights.grad, vec1, mulVec, dotProduct]; norm_num [Matrix.transpose]
  have hge : ∀ e, rhoGe ((Weights.diag (vec1 1)).chi2 (vec1 0 - fun i => vec1 1 i ^ 3) -
      (Weights.diag (vec1 1)).chi2 (vec1 0 - fun i => (vec1 1 + ((1 / 10 : ℚ) • (1 : Matrix (Fin 1) (Fin 1) ℚ)) *ᵥ vec1 3) i ^ 3)) e (1 / 10) = false := by
    intro e
    have hn : (Weights.diag (vec1 1)).chi2 (vec1 0 - fun i => vec1 1 i ^ 3) -
      (Weights.diag (vec1 1)).chi2 (vec1 0 - fun i => (vec1 1 + ((1 / 10 : ℚ) • (1 : Matrix (Fin 1) (Fin 1) ℚ)) *ᵥ vec1 3) i ^ 3) < 0 := by
      rw [smul_mulVec, one_mulVec]
      norm_num [Weights.chi2, vec1]
    unfold rhoGe
    split
    · rw [decide_eq_false_iff_not, not_lt]; exact hn.le
    · rename_i he
      rw [decide_eq_false_iff_not, not_le]
      exact (div_neg_of_neg_of_pos hn (abs_pos.2 he)).trans (by norm_num)
  have hgt : ∀ a e : ℚ, rhoGe a e (1 / 10) = false → rhoGt a e (1 / 10) = false := by
    intro a e h
    rw [Bool.eq_false_iff]
    intro hc
    rw [rhoGt_imp_ge hc] at h
    cases h
  simp only [hg, hge, hgt _ _ (hge _), Bool.false_eq_true, if_false, Option.some.injEq, Prod.mk.injEq, true_and]
  simp [Weights.chi2, vec1]

end Caustics
