import Verif.Model.RootFind
import Verif.Props.LM
import Mathlib.Analysis.InnerProductSpace.PiL2

/-! Levenberg-Marquardt on an invertible affine map of the plane. -/

namespace Caustics

open Matrix

section norm
variable {n : ℕ}

noncomputable def nrm (u : Fin n → ℝ) : ℝ := √(u ⬝ᵥ u)

theorem nrm_eq (u : Fin n → ℝ) : nrm u = ‖(WithLp.toLp 2 u : EuclideanSpace ℝ (Fin n))‖ := by
  rw [EuclideanSpace.norm_eq, nrm]
  congr 1
  simp [dotProduct, sq]

theorem nrm_nonneg (u : Fin n → ℝ) : 0 ≤ nrm u := Real.sqrt_nonneg _

theorem nrm_sq (u : Fin n → ℝ) : nrm u ^ 2 = u ⬝ᵥ u :=
  Real.sq_sqrt (Finset.sum_nonneg fun i _ => mul_self_nonneg _)

theorem nrm_sub_le (u w : Fin n → ℝ) : nrm (u - w) ≤ nrm u + nrm w := by
  rw [nrm_eq, nrm_eq, nrm_eq, WithLp.toLp_sub]
  exact norm_sub_le _ _

theorem dot_le_nrm (u w : Fin n → ℝ) : u ⬝ᵥ w ≤ nrm u * nrm w := by
  refine (le_abs_self _).trans (abs_le_of_sq_le_sq ?_ (mul_nonneg (nrm_nonneg u) (nrm_nonneg w)))
  rw [mul_pow, nrm_sq, nrm_sq]
  have := Finset.sum_mul_sq_le_sq_mul_sq Finset.univ u w
  simpa [dotProduct, sq] using this

theorem nrm_neg (u : Fin n → ℝ) : nrm (-u) = nrm u := by simp [nrm]

theorem nrm_zero : nrm (0 : Fin n → ℝ) = 0 := by simp [nrm]

end norm

section step
variable {n : ℕ}

/-- One step from `X` on the problem `A x + c = A v + c`: the solution is kept; from anywhere else the
step is accepted, the damping is divided by 11 and the error is damped. -/
theorem lm_affine_step (A : Matrix (Fin n) (Fin n) ℝ) (hA : A.det ≠ 0) (c v X : Fin n → ℝ) {L : ℝ}
    (hL : 0 < L) :
    ∃ X' L' r, lmStep (fun x => A *ᵥ x + c) (fun _ => A) 9 11 (1 / 10) (1 / 10 ^ 9) (10 ^ 9) X
        (A *ᵥ v + c) (.diag fun _ => 1) L = some (X', L', r) ∧
      ((X = v ∧ X' = v ∧ L' = clampTo (L * 9) (1 / 10 ^ 9) (10 ^ 9)) ∨
       (X ≠ v ∧ L' = clampTo (L / 11) (1 / 10 ^ 9) (10 ^ 9) ∧
        ∀ w, (A *ᵥ w) ⬝ᵥ (A *ᵥ (X' - v)) + L * (w ⬝ᵥ (X' - v)) = L * (w ⬝ᵥ (X - v)))) := by
  have hC : (Weights.diag (K := ℝ) (fun _ : Fin n => 1)).Psd := Weights.psd_diag (by simp)
  have hM : (Weights.diag (K := ℝ) (fun _ : Fin n => 1)).toMatrix = 1 := by
    simp [Weights.toMatrix]
  have hgrad : ∀ x, (Weights.diag (K := ℝ) (fun _ : Fin n => 1)).grad A (A *ᵥ v + c - (A *ᵥ x + c))
      = Aᵀ *ᵥ (A *ᵥ (v - x)) := by
    intro x
    rw [Weights.grad_eq, hM, one_mulVec, mulVec_sub A, add_sub_add_right_eq_sub]
  by_cases hX : X = v
  · subst hX
    have hdet := hess_det_ne hC A hL
    unfold lmStep
    simp only [if_neg hdet, sub_self]
    have hg0 : (Weights.diag (K := ℝ) (fun _ : Fin n => 1)).grad A 0 = 0 := by
      simp only [Weights.grad, Pi.zero_apply, zero_mul]
      exact mulVec_zero _
    simp only [hg0, mulVec_zero, add_zero, sub_self, dotProduct_zero, mul_zero]
    have h0 : rhoGe (0 : ℝ) 0 (1 / 10) = false := by simp [rhoGe]
    have h0' : rhoGt (0 : ℝ) 0 (1 / 10) = false := by simp [rhoGt]
    simp only [h0, h0']
    exact ⟨_, _, _, rfl, Or.inl ⟨trivial, by simp, by simp⟩⟩
  · have hg : (Weights.diag (K := ℝ) (fun _ : Fin n => 1)).grad A (A *ᵥ v + c - (A *ᵥ X + c)) ≠ 0 := by
      rw [hgrad, mulVec_mulVec]
      intro h0
      have hdet : (Aᵀ * A).det ≠ 0 := by
        rw [det_mul, det_transpose]; exact mul_ne_zero hA hA
      exact hX (sub_eq_zero.1 (eq_zero_of_mulVec_eq_zero hdet h0)).symm
    obtain ⟨h, -, hs, -⟩ := C37_linear_accepts (eps := 1 / 10) (Lup := 9) (Ldn := 11)
      (L_min := 1 / 10 ^ 9) (L_max := 10 ^ 9) hC A c X (A *ᵥ v + c) hL (by norm_num) hg
    have herr := C37_error hC A c X v (A *ᵥ v + c) hL (by norm_num)
      (by rw [hgrad, sub_self, mulVec_zero, mulVec_zero]) hg hs
    refine ⟨_, _, _, hs, Or.inr ⟨hX, rfl, fun w => ?_⟩⟩
    have h2 := congrArg (fun z => w ⬝ᵥ z) herr
    simp only [dotProduct_smul, smul_eq_mul] at h2
    rw [← h2, Weights.hess_eq, hM, Matrix.mul_one, add_mulVec, smul_mulVec, one_mulVec, dotProduct_add,
      dotProduct_smul, smul_eq_mul, ← mulVec_mulVec, dotProduct_mulVec w, vecMul_transpose]

/-- The error shrinks by at least `L / (σ² + L)`. -/
theorem lm_affine_contract {A : Matrix (Fin n) (Fin n) ℝ} {σ2 L : ℝ} (hL : 0 < L) (hσ : 0 ≤ σ2)
    (hA : ∀ u, σ2 * (u ⬝ᵥ u) ≤ (A *ᵥ u) ⬝ᵥ (A *ᵥ u)) {e e' : Fin n → ℝ}
    (h : ∀ w, (A *ᵥ w) ⬝ᵥ (A *ᵥ e') + L * (w ⬝ᵥ e') = L * (w ⬝ᵥ e)) :
    (σ2 + L) * nrm e' ≤ L * nrm e := by
  have h1 := h e'
  have h2 := hA e'
  have h3 := dot_le_nrm e' e
  have hq := nrm_sq e'
  have h3' := mul_le_mul_of_nonneg_left h3 hL.le
  rw [← hq] at h2
  rcases (nrm_nonneg e').eq_or_lt with h0 | h0
  · rw [← h0, mul_zero]; exact mul_nonneg hL.le (nrm_nonneg e)
  · have : nrm e' * ((σ2 + L) * nrm e') ≤ nrm e' * (L * nrm e) := by
      rw [← hq] at h1
      linarith
    exact le_of_mul_le_mul_left this h0

/-- The error before a step in terms of the length of the step. -/
theorem lm_affine_posterior {A : Matrix (Fin n) (Fin n) ℝ} {σ2 L : ℝ} (hL : 0 < L) (hσ : 0 < σ2)
    (hA : ∀ u, σ2 * (u ⬝ᵥ u) ≤ (A *ᵥ u) ⬝ᵥ (A *ᵥ u)) {e e' : Fin n → ℝ}
    (h : ∀ w, (A *ᵥ w) ⬝ᵥ (A *ᵥ e') + L * (w ⬝ᵥ e') = L * (w ⬝ᵥ e)) :
    nrm e ≤ (1 + L / σ2) * nrm (e' - e) := by
  have h1 := h e'
  have h2 := hA e'
  have h3 := dot_le_nrm e' (e - e')
  rw [dotProduct_sub] at h3
  have h5 : nrm (e - e') = nrm (e' - e) := by rw [← nrm_neg, neg_sub]
  rw [h5] at h3
  have h4 : nrm e ≤ nrm e' + nrm (e' - e) := by
    have := nrm_sub_le e' (e' - e)
    rwa [sub_sub_cancel] at this
  have h6 : σ2 * nrm e' ≤ L * nrm (e' - e) := by
    have hq := nrm_sq e'
    have h3' := mul_le_mul_of_nonneg_left h3 hL.le
    rw [← hq] at h2
    rcases (nrm_nonneg e').eq_or_lt with h0 | h0
    · rw [← h0, mul_zero]; exact mul_nonneg hL.le (nrm_nonneg _)
    · have : nrm e' * (σ2 * nrm e') ≤ nrm e' * (L * nrm (e' - e)) := by
        rw [← hq] at h1 h3'
        linarith
      exact le_of_mul_le_mul_left this h0
  have h7 : nrm e' ≤ L / σ2 * nrm (e' - e) := by
    rw [div_mul_eq_mul_div, le_div_iff₀ hσ]; linarith
  linarith

end step

section loop

/-- The damping parameter after `i` accepted steps. -/
noncomputable def lam (i : ℕ) : ℝ := max (1 / 11 ^ i) (1 / 10 ^ 9)

theorem lam_pos (i : ℕ) : 0 < lam i := lt_max_of_lt_right (by norm_num)

theorem lam_le_one (i : ℕ) : lam i ≤ 1 := by
  refine max_le ?_ (by norm_num)
  rw [div_le_one (by positivity)]
  exact one_le_pow₀ (by norm_num)

theorem lam_le {i : ℕ} (hi : 1 ≤ i) : lam i ≤ 1 / 11 := by
  refine max_le ?_ (by norm_num)
  refine one_div_le_one_div_of_le (by norm_num) ?_
  calc (11 : ℝ) = 11 ^ 1 := (pow_one _).symm
    _ ≤ 11 ^ i := pow_le_pow_right₀ (by norm_num) hi

theorem lam_late {i : ℕ} (hi : 9 ≤ i) : lam i = 1 / 10 ^ 9 := by
  refine max_eq_right (one_div_le_one_div_of_le (by norm_num) ?_)
  calc (10 : ℝ) ^ 9 ≤ 11 ^ 9 := by norm_num
    _ ≤ 11 ^ i := pow_le_pow_right₀ (by norm_num) hi

theorem lam_succ (i : ℕ) : clampTo (lam i / 11) (1 / 10 ^ 9) (10 ^ 9) = lam (i + 1) := by
  have h1 := lam_le_one i
  unfold clampTo
  rw [min_eq_left]
  · unfold lam
    rw [← max_div_div_right (by norm_num : (0 : ℝ) ≤ 11), max_assoc]
    congr 1
    · rw [pow_succ]; field_simp
    · exact max_eq_right (by norm_num)
  · exact max_le (by linarith) (by norm_num)

/-- The guaranteed reduction of the error after `i` steps. -/
noncomputable def fac (i : ℕ) : ℝ := 1 / 2 ^ (i - 9)

theorem nrm_two_lt {h : Fin 2 → ℝ} {d : ℝ} (hd : 0 ≤ d) (h0 : ∀ i, |h i| < d) : nrm h ≤ √2 * d := by
  rw [nrm]
  refine Real.sqrt_le_iff.2 ⟨by positivity, ?_⟩
  rw [mul_pow, Real.sq_sqrt (by norm_num)]
  have h1 := sq_lt_sq' (abs_lt.1 (h0 0)).1 (abs_lt.1 (h0 0)).2
  have h2 := sq_lt_sq' (abs_lt.1 (h0 1)).1 (abs_lt.1 (h0 1)).2
  simp only [dotProduct, Fin.sum_univ_two]
  nlinarith

theorem lm_affine_loop {B : ℕ} {T : Type} (A : Matrix (Fin 2) (Fin 2) ℝ) (hA : A.det ≠ 0)
    (c v : Fin 2 → ℝ) {σ2 : ℝ} (hσ : 0 ≤ σ2) (hA2 : ∀ u, σ2 * (u ⬝ᵥ u) ≤ (A *ᵥ u) ⬝ᵥ (A *ᵥ u))
    (E : Fin B → ℝ) (hE : ∀ b, 0 ≤ E b) (chi : (Fin B → ℝ) → T) (k : ℕ) :
    ∀ (i : ℕ) (X : Fin B → Fin 2 → ℝ) (L : Fin B → ℝ) (C : T), k + i = 50 → (∀ b, 0 < L b) →
      (i = 0 → ∀ b, L b = 1) → (∀ b, nrm (X b - v) ≤ E b) →
      (∀ b, X b = v ∨ (L b = lam i ∧ (1 / 10 ^ 9 ≤ σ2 → nrm (X b - v) ≤ E b * fac i))) →
      ∃ X' L' C', lmLoop (fun _ x l => lmStep (fun x => A *ᵥ x + c) (fun _ => A) 9 11 (1 / 10)
          (1 / 10 ^ 9) (10 ^ 9) x (A *ᵥ v + c) (.diag fun _ => 1) l) chi (1 / 10 ^ 4) (10 ^ 9) k X L C
          = some (X', L', C') ∧
        ∀ b, nrm (X' b - v) ≤ E b ∧ (1 / 10 ^ 9 ≤ σ2 →
          nrm (X' b - v) ≤ max ((1 + 1 / (11 * σ2)) * (√2 / 10 ^ 4)) (E b * fac 50)) := by
  induction k with
  | zero =>
    intro i X L C hi _ _ hX hP
    obtain rfl : i = 50 := by omega
    refine ⟨X, L, C, rfl, fun b => ⟨hX b, fun hs => ?_⟩⟩
    rcases hP b with h | ⟨-, h⟩
    · rw [h, sub_self, nrm_zero]
      exact le_max_of_le_right (mul_nonneg (hE b) (by unfold fac; positivity))
    · exact le_max_of_le_right (h hs)
  | succ k ih =>
    intro i X L C hi hL h0 hX hP
    choose X1 L1 r hstep hres using fun b => lm_affine_step A hA c v (X b) (hL b)
    have hsome : ∀ b, (lmStep (fun x => A *ᵥ x + c) (fun _ => A) 9 11 (1 / 10)
          (1 / 10 ^ 9) (10 ^ 9) (X b) (A *ᵥ v + c) (.diag fun _ => 1) (L b)).isSome := by
      intro b; rw [hstep]; rfl
    have hzero : ∀ b, X b = v → ∀ y, 0 ≤ y → nrm (X b - v) ≤ y := by
      intro b h y hy; rw [h, sub_self, nrm_zero]; exact hy
    have hfac : ∀ i, 0 < fac i := fun i => by unfold fac; positivity
    unfold lmLoop
    rw [dif_pos hsome]
    simp only [hstep, Option.get_some]
    have hgood : ∀ b, (X b = v ∧ X1 b = v) ∨ (X b ≠ v ∧ L b = lam i ∧ L1 b = lam (i + 1)) := by
      intro b
      rcases hres b with ⟨h1, h2, -⟩ | ⟨h1, h2, -⟩
      · exact Or.inl ⟨h1, h2⟩
      · have := ((hP b).resolve_left h1).1
        refine Or.inr ⟨h1, this, ?_⟩
        rw [h2, this, lam_succ]
    split
    · rename_i hstop
      refine ⟨_, _, _, rfl, fun b => ⟨hX b, fun hs => ?_⟩⟩
      have hs0 : 0 < σ2 := lt_of_lt_of_le (by norm_num) hs
      refine le_max_of_le_left ?_
      rcases hres b with ⟨h1, h2, -⟩ | ⟨h1, -, h3⟩
      · exact hzero b h1 _ (by positivity)
      · have hLi := ((hP b).resolve_left h1).1
        have hi1 : 1 ≤ i := by
          by_contra hcon
          obtain rfl : i = 0 := by omega
          have hcard : 0 < (Finset.univ.filter fun b => L1 b < 1 / 100).card := by
            by_contra h0'
            have : (Finset.univ.filter fun b => L1 b < 1 / 100).card = 0 := by omega
            rw [this] at hstop
            omega
          obtain ⟨b', hb'⟩ := Finset.card_pos.1 hcard
          have hb' := (Finset.mem_filter.1 hb').2
          have hone := h0 rfl b'
          rcases hres b' with ⟨-, -, h⟩ | ⟨-, h, -⟩
          · rw [h, hone] at hb'
            norm_num [clampTo] at hb'
          · rw [h, hone] at hb'
            norm_num [clampTo] at hb'
        have hpost := lm_affine_posterior (hL b) hs0 hA2 h3
        have hstep' : nrm (X1 b - v - (X b - v)) ≤ √2 / 10 ^ 4 := by
          have := nrm_two_lt (h := X1 b - X b) (d := 1 / 10 ^ 4) (by norm_num) fun i => hstop.1 b i
          rw [sub_sub_sub_cancel_right]
          calc _ ≤ _ := this
            _ = _ := by ring
        refine hpost.trans (mul_le_mul ?_ hstep' (nrm_nonneg _) (by positivity))
        rw [hLi]
        have := lam_le hi1
        have h4 : lam i / σ2 ≤ 1 / 11 / σ2 := by gcongr
        rw [div_div] at h4
        linarith
    · split
      · rename_i hstop
        refine ⟨_, _, _, rfl, fun b => ⟨hX b, fun hs => ?_⟩⟩
        rcases hgood b with ⟨h1, -⟩ | ⟨-, -, h1⟩
        · exact hzero b h1 _ (le_max_of_le_right (mul_nonneg (hE b) (hfac _).le))
        · exfalso
          have h2 := hstop b
          have h3 := lam_le_one (i + 1)
          rw [h1] at h2
          norm_num at h2
          linarith
      · have hcon : ∀ b, X b ≠ v → (σ2 + lam i) * nrm (X1 b - v) ≤ lam i * nrm (X b - v) := by
          intro b hb
          rcases hres b with ⟨h1, -⟩ | ⟨-, -, h3⟩
          · exact absurd h1 hb
          · have := lm_affine_contract (hL b) hσ hA2 h3
            rwa [((hP b).resolve_left hb).1] at this
        have hl := lam_pos i
        refine ih (i + 1) X1 L1 _ (by omega) (fun b => ?_) (by omega) (fun b => ?_) fun b => ?_
        · rcases hres b with ⟨-, -, h⟩ | ⟨-, h, -⟩ <;> rw [h] <;>
            exact lt_of_lt_of_le (by norm_num) (clampTo_mem (by norm_num)).1
        · rcases hgood b with ⟨-, h⟩ | ⟨hb, -, -⟩
          · rw [h, sub_self, nrm_zero]; exact hE b
          · have h1 := hcon b hb
            have h2 : lam i * nrm (X1 b - v) ≤ lam i * nrm (X b - v) := by
              have := mul_nonneg hσ (nrm_nonneg (X1 b - v))
              linarith
            exact (le_of_mul_le_mul_left h2 hl).trans (hX b)
        · rcases hgood b with ⟨-, h⟩ | ⟨hb, hLb, h⟩
          · exact Or.inl h
          · refine Or.inr ⟨h, fun hs => ?_⟩
            have h1 := hcon b hb
            have h2 := ((hP b).resolve_left hb).2 hs
            by_cases hi9 : 9 ≤ i
            · have hfs : fac (i + 1) = fac i / 2 := by
                unfold fac
                rw [show i + 1 - 9 = (i - 9) + 1 by omega, pow_succ]
                field_simp
              rw [lam_late hi9] at h1
              have h3 : (1 / 10 ^ 9 : ℝ) * nrm (X1 b - v) ≤ σ2 * nrm (X1 b - v) :=
                mul_le_mul_of_nonneg_right hs (nrm_nonneg _)
              rw [hfs]
              have h4 : (1 / 10 ^ 9 : ℝ) * (2 * nrm (X1 b - v)) ≤ 1 / 10 ^ 9 * nrm (X b - v) := by linarith
              have h5 := le_of_mul_le_mul_left h4 (by norm_num)
              linarith
            · have hfs : fac (i + 1) = fac i := by
                unfold fac
                rw [show i + 1 - 9 = 0 by omega, show i - 9 = 0 by omega]
              rw [hfs]
              refine le_trans ?_ h2
              have h3 : lam i * nrm (X1 b - v) ≤ lam i * nrm (X b - v) := by
                have := mul_nonneg hσ (nrm_nonneg (X1 b - v))
                linarith
              exact le_of_mul_le_mul_left h3 hl

end loop

end Caustics
