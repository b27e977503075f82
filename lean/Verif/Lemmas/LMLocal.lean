import Verif.Lemmas.RootFind
import Mathlib.LinearAlgebra.Matrix.NonsingularInverse

/-! Levenberg-Marquardt near a solution of a system that is not linear. -/

namespace Caustics

open Matrix

variable {n : ℕ}

theorem nrm_add_le (u w : Fin n → ℝ) : nrm (u + w) ≤ nrm u + nrm w := by
  have := nrm_sub_le u (-w)
  rwa [sub_neg_eq_add, nrm_neg] at this

theorem nrm_eq_zero {u : Fin n → ℝ} (h : nrm u = 0) : u = 0 := by
  by_contra hu
  have h1 := dot_self_pos hu
  rw [← nrm_sq, h] at h1
  norm_num at h1

theorem nrm_pos {u : Fin n → ℝ} (h : u ≠ 0) : 0 < nrm u :=
  lt_of_le_of_ne (nrm_nonneg u) fun h0 => h (nrm_eq_zero h0.symm)

theorem abs_dot_le (u w : Fin n → ℝ) : |u ⬝ᵥ w| ≤ nrm u * nrm w := by
  rw [abs_le]
  have h1 := dot_le_nrm (-u) w
  rw [neg_dotProduct, nrm_neg] at h1
  exact ⟨by linarith, dot_le_nrm u w⟩

theorem dot_sub_self (a b : Fin n → ℝ) : (a - b) ⬝ᵥ (a - b) = a ⬝ᵥ a - 2 * (a ⬝ᵥ b) + b ⬝ᵥ b := by
  rw [sub_dotProduct, dotProduct_sub, dotProduct_sub, dotProduct_comm b a]
  ring

/-- A square matrix and its transpose stretch by the same least factor. -/
theorem transpose_stretch {J : Matrix (Fin n) (Fin n) ℝ} {σ : ℝ} (hσ : 0 < σ) (hJ : ∀ u, σ * nrm u ≤ nrm (J *ᵥ u))
    (w : Fin n → ℝ) : σ * nrm w ≤ nrm (Jᵀ *ᵥ w) := by
  have hdet : J.det ≠ 0 := by
    intro h
    obtain ⟨v, hv, h0⟩ := Matrix.exists_mulVec_eq_zero_iff.2 h
    have h1 := hJ v
    rw [h0, nrm_zero] at h1
    have h2 := mul_pos hσ (nrm_pos hv)
    linarith
  set u := J⁻¹ *ᵥ w with hu
  have hw : w = J *ᵥ u := by
    rw [hu, mulVec_mulVec, Matrix.mul_nonsing_inv _ (Ne.isUnit hdet), one_mulVec]
  have h1 : nrm w ^ 2 = u ⬝ᵥ (Jᵀ *ᵥ w) := by
    rw [nrm_sq, dotProduct_mulVec, vecMul_transpose, ← hw]
  have h2 := dot_le_nrm u (Jᵀ *ᵥ w)
  have h3 := hJ u
  rw [← hw] at h3
  have h4 : σ * nrm w ^ 2 ≤ nrm w * nrm (Jᵀ *ᵥ w) := by
    rw [h1]
    calc σ * (u ⬝ᵥ (Jᵀ *ᵥ w)) ≤ σ * (nrm u * nrm (Jᵀ *ᵥ w)) := mul_le_mul_of_nonneg_left h2 hσ.le
      _ = σ * nrm u * nrm (Jᵀ *ᵥ w) := by ring
      _ ≤ nrm w * nrm (Jᵀ *ᵥ w) := mul_le_mul_of_nonneg_right h3 (nrm_nonneg _)
  rcases (nrm_nonneg w).eq_or_lt with h0 | h0
  · rw [← h0, mul_zero]; exact nrm_nonneg _
  · refine le_of_mul_le_mul_left ?_ h0
    calc nrm w * (σ * nrm w) = σ * nrm w ^ 2 := by ring
      _ ≤ _ := h4

theorem transpose_bound {J : Matrix (Fin n) (Fin n) ℝ} {S : ℝ} (hJ : ∀ u, nrm (J *ᵥ u) ≤ S * nrm u) (w : Fin n → ℝ) :
    nrm (Jᵀ *ᵥ w) ≤ S * nrm w := by
  have h1 : nrm (Jᵀ *ᵥ w) ^ 2 = (J *ᵥ (Jᵀ *ᵥ w)) ⬝ᵥ w := by
    rw [nrm_sq, dotProduct_mulVec (Jᵀ *ᵥ w), vecMul_transpose]
  have h2 := dot_le_nrm (J *ᵥ (Jᵀ *ᵥ w)) w
  have h3 := mul_le_mul_of_nonneg_right (hJ (Jᵀ *ᵥ w)) (nrm_nonneg w)
  rcases (nrm_nonneg (Jᵀ *ᵥ w)).eq_or_lt with h0 | h0
  · have := nrm_nonneg (J *ᵥ w)
    have := hJ w
    rw [← h0]; linarith
  · refine le_of_mul_le_mul_left ?_ h0
    nlinarith

theorem lm_contract_scalar {σ η L u e a : ℝ} (hσ : 0 < σ) (hη : 0 ≤ η) (hL : 0 < L) (hu : 0 ≤ u) (he : 0 < e)
    (k1 : σ * u ≤ a) (huq : a ^ 2 + L * u ^ 2 ≤ L * (u * e) + a * (η * e)) :
    u ≤ η / σ * e ∨ u ≤ (L + σ * η) / (σ ^ 2 + L) * e := by
  by_contra hcon
  push Not at hcon
  obtain ⟨c1, c2⟩ := hcon
  rw [div_mul_eq_mul_div, div_lt_iff₀ hσ] at c1
  rw [div_mul_eq_mul_div, div_lt_iff₀ (by positivity)] at c2
  have hu0 : 0 < u := by
    by_contra h0
    have h0' : u = 0 := by linarith
    rw [h0'] at c1
    have := mul_nonneg hη he.le
    linarith
  have k2 : 0 ≤ (a - σ * u) * (a + σ * u - η * e) :=
    mul_nonneg (by linarith) (by linarith [mul_pos hσ hu0])
  have k3 : u * ((L + σ * η) * e) < u * (u * (σ ^ 2 + L)) := mul_lt_mul_of_pos_left c2 hu0
  nlinarith

theorem lm_accept_scalar {σ S η eps L N D G drop : ℝ} (hσ : 0 < σ) (hσS : σ ≤ S) (hη : 0 ≤ η)
    (hη' : 4 * S ^ 2 * η ≤ σ ^ 3) (he : eps ≤ 1 / 10) (hL : 0 < L) (hN : 0 < N) (hG : (σ ^ 2 + L) * N ^ 2 ≤ G)
    (hD : σ * D ≤ (S ^ 2 + L) * N) (hdrop : G + L * N ^ 2 - 2 * (D * (η * N)) - (η * N) ^ 2 ≤ drop) :
    eps * (3 * G) < drop := by
  have hS2 : σ ^ 2 ≤ S ^ 2 := by gcongr
  have hησ : 4 * η ≤ σ := by
    have h4 : σ ^ 2 * (4 * η) ≤ σ ^ 2 * σ := by nlinarith
    exact le_of_mul_le_mul_left h4 (by positivity)
  have hdh : D * (η * N) ≤ η * (S ^ 2 + L) / σ * N ^ 2 := by
    have k1 : D ≤ (S ^ 2 + L) * N / σ := by
      rw [le_div_iff₀ hσ]; linarith
    calc D * (η * N) ≤ (S ^ 2 + L) * N / σ * (η * N) := mul_le_mul_of_nonneg_right k1 (by positivity)
      _ = _ := by ring
  have k1 : η * S ^ 2 / σ ≤ σ ^ 2 / 4 := by
    rw [div_le_iff₀ hσ]; nlinarith
  have k2 : η * L / σ ≤ L / 4 := by
    rw [div_le_iff₀ hσ]; nlinarith
  have k3 : η ^ 2 ≤ σ ^ 2 / 16 := by nlinarith
  have k4 : η * (S ^ 2 + L) / σ = η * S ^ 2 / σ + η * L / σ := by ring
  have hcoef : 2 * (η * (S ^ 2 + L) / σ) + η ^ 2 ≤ 9 / 16 * σ ^ 2 + L / 2 := by
    rw [k4]; linarith
  have m1 := mul_le_mul_of_nonneg_right hcoef (sq_nonneg N)
  have m2 : 0 < σ ^ 2 * N ^ 2 := by positivity
  have m3 : 0 < L * N ^ 2 := by positivity
  have hG0 : 0 < G := by nlinarith
  have m4 : eps * (3 * G) ≤ 3 / 10 * G := by nlinarith
  nlinarith

/-- One step near a solution `v`: from anywhere else than the solution it is accepted and the error shrinks. -/
theorem lm_local_step {f : (Fin n → ℝ) → (Fin n → ℝ)} {jac : (Fin n → ℝ) → Matrix (Fin n) (Fin n) ℝ}
    {Lup Ldn eps L_min L_max σ S η L r : ℝ} {v X : Fin n → ℝ} (hσ : 0 < σ) (hσS : σ ≤ S) (hη : 0 ≤ η)
    (hη' : 4 * S ^ 2 * η ≤ σ ^ 3) (he : eps ≤ 1 / 10) (hL : 0 < L) (hX : nrm (X - v) ≤ r)
    (h1 : ∀ x, nrm (x - v) ≤ r → ∀ u, σ * nrm u ≤ nrm (jac x *ᵥ u))
    (h2 : ∀ x, nrm (x - v) ≤ r → ∀ u, nrm (jac x *ᵥ u) ≤ S * nrm u)
    (h3 : ∀ x y, nrm (x - v) ≤ r → nrm (y - v) ≤ r → nrm (f y - f x - jac x *ᵥ (y - x)) ≤ η * nrm (y - x)) :
    ∃ X' L' c, lmStep f jac Lup Ldn eps L_min L_max X (f v) (.diag fun _ => 1) L = some (X', L', c) ∧
      ((X = v ∧ X' = v) ∨ (X ≠ v ∧ L' = clampTo (L / Ldn) L_min L_max ∧ c = (f v - f X') ⬝ᵥ (f v - f X') ∧
        (nrm (X' - v) ≤ η / σ * nrm (X - v) ∨ nrm (X' - v) ≤ (L + σ * η) / (σ ^ 2 + L) * nrm (X - v)))) := by
  have hr : 0 ≤ r := (nrm_nonneg _).trans hX
  have hvr : nrm (v - v) ≤ r := by rw [sub_self, nrm_zero]; exact hr
  have hS : 0 < S := hσ.trans_le hσS
  have hC : (Weights.diag (K := ℝ) (fun _ : Fin n => 1)).Psd := Weights.psd_diag (by simp)
  have hM : (Weights.diag (K := ℝ) (fun _ : Fin n => 1)).toMatrix = 1 := by simp [Weights.toMatrix]
  set J := jac X with hJ
  have hdet := hess_det_ne hC J hL
  have hgrad : ∀ d, (Weights.diag (K := ℝ) (fun _ : Fin n => 1)).grad J d = Jᵀ *ᵥ d := by
    intro d; rw [Weights.grad_eq, hM, one_mulVec]
  have hchi : ∀ d, (Weights.diag (K := ℝ) (fun _ : Fin n => 1)).chi2 d = d ⬝ᵥ d := by
    intro d; rw [Weights.chi2_eq, hM, one_mulVec]
  have hhess : ∀ u, (Weights.diag (K := ℝ) (fun _ : Fin n => 1)).hess J L *ᵥ u = Jᵀ *ᵥ (J *ᵥ u) + L • u := by
    intro u; rw [Weights.hess_eq, hM, Matrix.mul_one, add_mulVec, smul_mulVec, one_mulVec, mulVec_mulVec]
  by_cases hXv : X = v
  · subst hXv
    have h0 : rhoGe (0 : ℝ) 0 eps = false := by simp [rhoGe]
    have h0' : rhoGt (0 : ℝ) 0 eps = false := by simp [rhoGt]
    unfold lmStep
    simp only [← hJ, if_neg hdet, sub_self, hgrad, mulVec_zero, add_zero, dotProduct_zero, mul_zero, h0, h0']
    exact ⟨_, _, _, rfl, Or.inl ⟨trivial, by simp⟩⟩
  set d := f v - f X with hd
  set g := Jᵀ *ᵥ d with hg
  set h := ((Weights.diag (K := ℝ) (fun _ : Fin n => 1)).hess J L)⁻¹ *ᵥ g with hh
  have hHh : Jᵀ *ᵥ (J *ᵥ h) + L • h = g := by
    rw [← hhess, hh, mulVec_mulVec, Matrix.mul_nonsing_inv _ (Ne.isUnit hdet), one_mulVec]
  set e := X - v with hedef
  have he1 : 0 < nrm e := nrm_pos (sub_ne_zero.2 hXv)
  -- the residual
  set r2 := d - J *ᵥ (v - X) with hr2
  have hr2n : nrm r2 ≤ η * nrm e := by
    have := h3 X v hX hvr
    rw [← hJ, ← hd, ← hr2, ← neg_sub X v, nrm_neg] at this
    exact this
  have hdJ : d = r2 - J *ᵥ e := by
    rw [hr2, hedef, ← neg_sub X v, mulVec_neg]; abel
  have hσJ := h1 X hX
  have hSJ := h2 X hX
  rw [← hJ] at hσJ hSJ
  have hησ : 4 * η ≤ σ := by
    have : σ ^ 2 ≤ S ^ 2 := by gcongr
    have h4 : σ ^ 2 * (4 * η) ≤ σ ^ 2 * σ := by nlinarith
    exact le_of_mul_le_mul_left h4 (by positivity)
  have hd0 : d ≠ 0 := by
    intro h0
    have h4 := hσJ e
    have h5 : J *ᵥ e = r2 := by rw [h0] at hdJ; exact (sub_eq_zero.1 hdJ.symm).symm
    rw [h5] at h4
    nlinarith
  have hd1 := nrm_pos hd0
  have hg1 : σ * nrm d ≤ nrm g := transpose_stretch hσ hσJ d
  have hg0 : g ≠ 0 := by
    intro h0; rw [h0, nrm_zero] at hg1; nlinarith
  have hh0 : h ≠ 0 := by
    intro h0
    rw [h0, mulVec_zero, mulVec_zero, smul_zero, add_zero] at hHh
    exact hg0 hHh.symm
  have hh1 := nrm_pos hh0
  -- h . g
  have hhg : h ⬝ᵥ g = nrm (J *ᵥ h) ^ 2 + L * nrm h ^ 2 := by
    rw [nrm_sq, nrm_sq, ← hHh, dotProduct_add, dotProduct_smul, smul_eq_mul, dotProduct_mulVec, vecMul_transpose]
  have hhgl : (σ ^ 2 + L) * nrm h ^ 2 ≤ h ⬝ᵥ g := by
    have := pow_le_pow_left₀ (by positivity) (hσJ h) 2
    rw [hhg]; nlinarith
  have hgu : nrm g ≤ (S ^ 2 + L) * nrm h := by
    rw [← hHh]
    refine (nrm_add_le _ _).trans ?_
    have k1 := (transpose_bound hSJ (J *ᵥ h)).trans (mul_le_mul_of_nonneg_left (hSJ h) hS.le)
    have k2 : nrm (L • h) = L * nrm h := by
      rw [nrm, nrm, smul_dotProduct, dotProduct_smul, smul_eq_mul, smul_eq_mul, ← mul_assoc, Real.sqrt_mul (by positivity),
        Real.sqrt_mul_self hL.le]
    rw [k2]; nlinarith
  -- the new error
  set u := X + h - v with hu
  have hue : u = e + h := by rw [hu, hedef]; abel
  have hHu : Jᵀ *ᵥ (J *ᵥ u) + L • u = L • e + Jᵀ *ᵥ r2 := by
    have : g = Jᵀ *ᵥ r2 - Jᵀ *ᵥ (J *ᵥ e) := by rw [hg, hdJ, mulVec_sub]
    rw [hue, mulVec_add, mulVec_add, smul_add]
    rw [this] at hHh
    rw [show Jᵀ *ᵥ (J *ᵥ e) + Jᵀ *ᵥ (J *ᵥ h) + (L • e + L • h) =
      (Jᵀ *ᵥ (J *ᵥ h) + L • h) + (Jᵀ *ᵥ (J *ᵥ e) + L • e) by abel, hHh]
    abel
  have huq : nrm (J *ᵥ u) ^ 2 + L * nrm u ^ 2 ≤ L * (nrm u * nrm e) + nrm (J *ᵥ u) * (η * nrm e) := by
    have k := congrArg (fun z => u ⬝ᵥ z) hHu
    simp only [dotProduct_add, dotProduct_smul, smul_eq_mul] at k
    rw [dotProduct_mulVec, vecMul_transpose, dotProduct_mulVec u Jᵀ r2, vecMul_transpose, ← nrm_sq, ← nrm_sq] at k
    rw [k]
    refine add_le_add (mul_le_mul_of_nonneg_left (dot_le_nrm _ _) hL.le) ((dot_le_nrm _ _).trans ?_)
    exact mul_le_mul_of_nonneg_left hr2n (nrm_nonneg _)
  have hnew : nrm u ≤ η / σ * nrm e ∨ nrm u ≤ (L + σ * η) / (σ ^ 2 + L) * nrm e :=
    lm_contract_scalar hσ hη hL (nrm_nonneg u) he1 (hσJ u) huq
  have hur : nrm u ≤ r := by
    refine le_trans ?_ hX
    rcases hnew with k | k
    · refine k.trans (mul_le_of_le_one_left he1.le ?_)
      rw [div_le_one hσ]; linarith
    · refine k.trans (mul_le_of_le_one_left he1.le ?_)
      rw [div_le_one (by positivity)]; nlinarith
  -- acceptance
  set r3 := f (X + h) - f X - J *ᵥ h with hr3
  have hr3n : nrm r3 ≤ η * nrm h := by
    have := h3 X (X + h) hX hur
    rwa [← hJ, add_sub_cancel_left, ← hr3] at this
  have hdnew : f v - f (X + h) = d - J *ᵥ h - r3 := by rw [hr3, hd]; abel
  have hJhd : (J *ᵥ h) ⬝ᵥ d = h ⬝ᵥ g := by rw [hg, dotProduct_mulVec, vecMul_transpose]
  have hlin : d ⬝ᵥ d - (d - J *ᵥ h) ⬝ᵥ (d - J *ᵥ h) = h ⬝ᵥ g + L * nrm h ^ 2 := by
    rw [dot_sub_self d (J *ᵥ h), dotProduct_comm d (J *ᵥ h), hJhd, ← nrm_sq (J *ᵥ h), hhg]
    ring
  have hle : nrm (d - J *ᵥ h) ≤ nrm d := by
    refine (abs_le_of_sq_le_sq' ?_ hd1.le).2
    rw [nrm_sq, nrm_sq]
    nlinarith [sq_nonneg (nrm h), sq_nonneg (nrm (J *ᵥ h))]
  have hcross : |(d - J *ᵥ h) ⬝ᵥ r3| ≤ nrm d * (η * nrm h) :=
    (abs_dot_le _ _).trans (mul_le_mul hle hr3n (nrm_nonneg _) hd1.le)
  have hdrop : h ⬝ᵥ g + L * nrm h ^ 2 - 2 * (nrm d * (η * nrm h)) - (η * nrm h) ^ 2 ≤
      d ⬝ᵥ d - (f v - f (X + h)) ⬝ᵥ (f v - f (X + h)) := by
    rw [hdnew, dot_sub_self (d - J *ᵥ h) r3, ← nrm_sq r3]
    have k1 := (abs_le.1 hcross).1
    have k2 := pow_le_pow_left₀ (nrm_nonneg r3) hr3n 2
    linarith
  have hpos : 0 < h ⬝ᵥ g := lt_of_lt_of_le (by positivity) hhgl
  have hmain := lm_accept_scalar hσ hσS hη hη' he hL hh1 hhgl (hg1.trans hgu) hdrop
  have hexp : h ⬝ᵥ g + 2 * (h ⬝ᵥ g) = 3 * (h ⬝ᵥ g) := by ring
  have hp3 : 0 < 3 * (h ⬝ᵥ g) := by linarith
  have hlt : eps < (d ⬝ᵥ d - (f v - f (X + h)) ⬝ᵥ (f v - f (X + h))) / |3 * (h ⬝ᵥ g)| := by
    rw [abs_of_pos hp3, lt_div_iff₀ hp3]; exact hmain
  have hge : rhoGe (d ⬝ᵥ d - (f v - f (X + h)) ⬝ᵥ (f v - f (X + h))) (h ⬝ᵥ g + 2 * (h ⬝ᵥ g)) eps = true := by
    unfold rhoGe; rw [hexp, if_neg hp3.ne', decide_eq_true_eq]; exact hlt.le
  have hgt : rhoGt (d ⬝ᵥ d - (f v - f (X + h)) ⬝ᵥ (f v - f (X + h))) (h ⬝ᵥ g + 2 * (h ⬝ᵥ g)) eps = true := by
    unfold rhoGt; rw [hexp, if_neg hp3.ne', decide_eq_true_eq]; exact hlt
  refine ⟨X + h, clampTo (L / Ldn) L_min L_max, (f v - f (X + h)) ⬝ᵥ (f v - f (X + h)), ?_, Or.inr ⟨hXv, rfl, rfl, hnew⟩⟩
  unfold lmStep
  have hHh' : (Weights.diag (K := ℝ) (fun _ : Fin n => 1)).hess J L *ᵥ h = g := (hhess h).trans hHh
  simp only [← hJ, if_neg hdet, hgrad, hchi, ← hd, ← hg, ← hh, hHh', hge, hgt, if_true]

/-- The damping never makes a step fail, whatever the function and its derivative. -/
theorem lmStep_total {f : (Fin n → ℝ) → (Fin n → ℝ)} {jac : (Fin n → ℝ) → Matrix (Fin n) (Fin n) ℝ}
    {Lup Ldn eps L_min L_max L : ℝ} (h0 : 0 < L_min) (hm : L_min ≤ L_max) (X Y : Fin n → ℝ) (hL : 0 < L) :
    ∃ X' L' c, lmStep f jac Lup Ldn eps L_min L_max X Y (.diag fun _ => 1) L = some (X', L', c) ∧ 0 < L' := by
  have hC : (Weights.diag (K := ℝ) (fun _ : Fin n => 1)).Psd := Weights.psd_diag (by simp)
  unfold lmStep
  simp only [if_neg (hess_det_ne hC (jac X) hL)]
  exact ⟨_, _, _, rfl, h0.trans_le (clampTo_mem hm).1⟩

theorem nrm_lt_of_abs {h : Fin n → ℝ} {d : ℝ} (hd : 0 ≤ d) (h0 : ∀ i, |h i| < d) : nrm h ≤ √n * d := by
  rw [nrm]
  refine Real.sqrt_le_iff.2 ⟨by positivity, ?_⟩
  rw [mul_pow, Real.sq_sqrt (Nat.cast_nonneg n), dotProduct]
  calc ∑ i, h i * h i ≤ ∑ _i : Fin n, d ^ 2 := Finset.sum_le_sum fun i _ => by
        rw [← abs_mul_abs_self]; nlinarith [h0 i, abs_nonneg (h i)]
    _ = n * d ^ 2 := by simp

/-- The loop follows a problem of the batch that starts near a solution, whatever the others do. -/
theorem lm_local_loop {B : ℕ} {T : Type} {step : Fin B → (Fin n → ℝ) → ℝ → Option ((Fin n → ℝ) × ℝ × ℝ)}
    (chi : (Fin B → ℝ) → T) {stopping L_max L0 q : ℝ} {v : Fin n → ℝ} {r : ℝ} (b : Fin B) (hst : 0 ≤ stopping)
    (hL0 : L0 < L_max) (hq0 : 0 ≤ q) (hq1 : q < 1)
    (htot : ∀ b' x l, 0 < l → ∃ x' l' c, step b' x l = some (x', l', c) ∧ 0 < l')
    (hb : ∀ x l, 0 < l → l ≤ L0 → nrm (x - v) ≤ r → ∃ x' l' c, step b x l = some (x', l', c) ∧
      ((x = v ∧ x' = v) ∨ (l' ≤ L0 ∧ nrm (x' - v) ≤ q * nrm (x - v))))
    (hv : ∀ l, 0 < l → ∃ l' c, step b v l = some (v, l', c)) (k : ℕ) :
    ∀ (X : Fin B → Fin n → ℝ) (L : Fin B → ℝ) (C : T), (∀ b, 0 < L b) → nrm (X b - v) ≤ r → (X b = v ∨ L b ≤ L0) →
      ∃ X' L' C', lmLoop step chi stopping L_max k X L C = some (X', L', C') ∧
        nrm (X' b - v) ≤ nrm (X b - v) ∧
        nrm (X' b - v) ≤ max (√n * stopping / (1 - q)) (q ^ k * nrm (X b - v)) := by
  induction k with
  | zero =>
    intro X L C _ _ _
    exact ⟨X, L, C, rfl, le_rfl, by rw [pow_zero, one_mul]; exact le_max_right _ _⟩
  | succ k ih =>
    intro X L C hL hr hbL
    choose X1 L1 c1 hstep hpos using fun b' => htot b' (X b') (L b') (hL b')
    have hres : (X b = v ∧ X1 b = v) ∨ (L1 b ≤ L0 ∧ nrm (X1 b - v) ≤ q * nrm (X b - v)) := by
      by_cases hX : X b = v
      · obtain ⟨l', c, h⟩ := hv (L b) (hL b)
        have h1 := hstep b
        rw [hX, h, Option.some.injEq, Prod.mk.injEq] at h1
        exact Or.inl ⟨hX, h1.1.symm⟩
      · obtain ⟨x', l', c, h, h2⟩ := hb (X b) (L b) (hL b) (hbL.resolve_left hX) hr
        rw [hstep b, Option.some.injEq, Prod.mk.injEq, Prod.mk.injEq] at h
        rw [h.1, h.2.1]
        exact h2
    have hsome : ∀ b', (step b' (X b') (L b')).isSome := by intro b'; rw [hstep]; rfl
    have hle : nrm (X1 b - v) ≤ q * nrm (X b - v) := by
      rcases hres with ⟨h1, h2⟩ | ⟨-, h⟩
      · rw [h1, h2, sub_self, nrm_zero, mul_zero]
      · exact h
    have hle1 : nrm (X1 b - v) ≤ nrm (X b - v) := hle.trans (mul_le_of_le_one_left (nrm_nonneg _) hq1.le)
    unfold lmLoop
    rw [dif_pos hsome]
    simp only [hstep, Option.get_some]
    split
    · rename_i hstop
      refine ⟨_, _, _, rfl, le_rfl, le_max_of_le_left ?_⟩
      have h1 := nrm_lt_of_abs (h := X1 b - X b) hst (fun i => hstop.1 b i)
      have h2 : nrm (X b - v) ≤ nrm (X1 b - v) + nrm (X1 b - X b) := by
        have := nrm_sub_le (X1 b - v) (X1 b - X b)
        rwa [show X1 b - v - (X1 b - X b) = X b - v by abel] at this
      rw [le_div_iff₀ (by linarith)]
      nlinarith
    · split
      · rename_i hstop
        refine ⟨_, _, _, rfl, le_rfl, ?_⟩
        rcases hres with ⟨h1, -⟩ | ⟨h1, -⟩
        · rw [h1, sub_self, nrm_zero]
          exact le_max_of_le_right (by simp)
        · have := hstop b
          linarith
      · obtain ⟨X', L', C', h, h1, h2⟩ := ih X1 L1 (chi fun b => c1 b) hpos (hle1.trans hr)
          (by rcases hres with ⟨-, h⟩ | ⟨h, -⟩; exacts [Or.inl h, Or.inr h])
        refine ⟨X', L', C', h, h1.trans hle1, h2.trans (max_le_max le_rfl ?_)⟩
        rw [pow_succ, mul_assoc]
        exact mul_le_mul_of_nonneg_left hle (pow_nonneg hq0 k)

end Caustics
