import Verif.Lemmas.LMLocal
import Verif.Props.RegularImages
import Verif.Props.RootFind

/-! C118: the root finder converges to every regular image it is started near to. -/

open Real Matrix

namespace Caustics

variable {n : ℕ}

theorem norm_le_nrm (u : Fin n → ℝ) : ‖u‖ ≤ nrm u := by
  refine (pi_norm_le_iff_of_nonneg (nrm_nonneg u)).2 fun i => ?_
  rw [Real.norm_eq_abs]
  refine abs_le_of_sq_le_sq ?_ (nrm_nonneg u)
  rw [nrm_sq, pow_two]
  exact Finset.single_le_sum (f := fun i => u i * u i) (fun i _ => mul_self_nonneg _) (Finset.mem_univ i)

theorem nrm_le_norm (u : Fin n → ℝ) : nrm u ≤ √n * ‖u‖ := by
  rw [nrm]
  refine Real.sqrt_le_iff.2 ⟨by positivity, ?_⟩
  rw [mul_pow, Real.sq_sqrt (Nat.cast_nonneg n), dotProduct]
  calc ∑ i, u i * u i ≤ ∑ _i : Fin n, ‖u‖ ^ 2 := Finset.sum_le_sum fun i _ => by
        rw [← abs_mul_abs_self]
        have := norm_le_pi_norm u i
        rw [Real.norm_eq_abs] at this
        nlinarith [abs_nonneg (u i)]
    _ = n * ‖u‖ ^ 2 := by simp

theorem clm_nrm (A : (Fin n → ℝ) →L[ℝ] (Fin n → ℝ)) (u : Fin n → ℝ) : nrm (A u) ≤ √n * ‖A‖ * nrm u := by
  refine (nrm_le_norm _).trans ?_
  rw [mul_assoc]
  refine mul_le_mul_of_nonneg_left ((A.le_opNorm u).trans ?_) (Real.sqrt_nonneg _)
  exact mul_le_mul_of_nonneg_left (norm_le_nrm u) (norm_nonneg _)

/-- What is needed of a map near a regular solution. -/
theorem regular_constants {f : (Fin n → ℝ) → (Fin n → ℝ)} {jac : (Fin n → ℝ) → Matrix (Fin n) (Fin n) ℝ} {v : Fin n → ℝ}
    (hf : ContDiffAt ℝ 1 f v) (hjac : ∀ᶠ x in nhds v, ∀ u, jac x *ᵥ u = fderiv ℝ f x u) (hdet : (jac v).det ≠ 0) :
    ∃ σ > 0, ∃ S, σ ≤ S ∧ ∀ η > 0, ∃ r > 0,
      (∀ x, nrm (x - v) ≤ r → ∀ u, σ * nrm u ≤ nrm (jac x *ᵥ u)) ∧
      (∀ x, nrm (x - v) ≤ r → ∀ u, nrm (jac x *ᵥ u) ≤ S * nrm u) ∧
      (∀ x y, nrm (x - v) ≤ r → nrm (y - v) ≤ r → nrm (f y - f x - jac x *ᵥ (y - x)) ≤ η * nrm (y - x)) := by
  have hv := hjac.self_of_nhds
  set A := fderiv ℝ f v with hA
  set c := √n * ‖(Matrix.toLin' (jac v)⁻¹).toContinuousLinearMap‖ + 1 with hc
  have hc0 : 0 < c := by positivity
  have hlow : ∀ u, 1 / c * nrm u ≤ nrm (A u) := by
    intro u
    have h1 := clm_nrm (Matrix.toLin' (jac v)⁻¹).toContinuousLinearMap (A u)
    have h2 : (Matrix.toLin' (jac v)⁻¹).toContinuousLinearMap (A u) = u := by
      rw [LinearMap.coe_toContinuousLinearMap', Matrix.toLin'_apply, ← hv u, mulVec_mulVec,
        Matrix.nonsing_inv_mul _ (Ne.isUnit hdet), one_mulVec]
    rw [h2] at h1
    rw [div_mul_eq_mul_div, one_mul, div_le_iff₀ hc0]
    have := nrm_nonneg (A u)
    nlinarith
  set σ := 1 / c / 2 with hσ
  have hσ0 : 0 < σ := by positivity
  have hA0 : 0 ≤ √n * ‖A‖ := by positivity
  refine ⟨σ, hσ0, √n * ‖A‖ + σ, by linarith, fun η hη => ?_⟩
  set t := min (η / 2) σ / (√n + 1) with ht
  have hm : 0 < min (η / 2) σ := lt_min (by positivity) hσ0
  have ht0 : 0 < t := by positivity
  have htn : √n * t ≤ min (η / 2) σ := by
    rw [ht, mul_div_assoc', div_le_iff₀ (by positivity)]
    nlinarith [Real.sqrt_nonneg (n : ℝ)]
  have hcont : ContinuousAt (fderiv ℝ f) v := (hf.fderiv_right (m := 0) (by norm_num)).continuousAt
  have e1 : ∀ᶠ x in nhds v, ‖fderiv ℝ f x - A‖ ≤ t := by
    have := Metric.continuousAt_iff'.1 hcont t ht0
    filter_upwards [this] with x hx
    rw [dist_eq_norm] at hx
    exact hx.le
  have e2 := (hf.hasStrictFDerivAt one_ne_zero).isLittleO.def ht0
  obtain ⟨r1, hr1, k1⟩ := Metric.eventually_nhds_iff_ball.1 (e1.and hjac)
  obtain ⟨r2, hr2, k2⟩ := Metric.eventually_nhds_iff_ball.1 e2
  have hball : ∀ x, nrm (x - v) ≤ min r1 r2 / 2 → ‖x - v‖ < r1 ∧ ‖x - v‖ < r2 := by
    intro x hx
    have h1 := norm_le_nrm (x - v)
    have h2 := lt_min hr1 hr2
    have h3 := min_le_left r1 r2
    have h4 := min_le_right r1 r2
    constructor <;> linarith
  have hdiff : ∀ x, nrm (x - v) ≤ min r1 r2 / 2 → ∀ u, nrm (jac x *ᵥ u - A u) ≤ min (η / 2) σ * nrm u := by
    intro x hx u
    obtain ⟨h1, h2⟩ := k1 x (by rw [Metric.mem_ball, dist_eq_norm]; exact (hball x hx).1)
    rw [h2 u, ← _root_.sub_apply]
    refine (clm_nrm _ u).trans (mul_le_mul_of_nonneg_right ?_ (nrm_nonneg u))
    exact (mul_le_mul_of_nonneg_left h1 (Real.sqrt_nonneg _)).trans htn
  have hr0 : 0 < min r1 r2 / 2 := half_pos (lt_min hr1 hr2)
  refine ⟨min r1 r2 / 2, hr0, fun x hx u => ?_, fun x hx u => ?_, fun x y hx hy => ?_⟩
  · have h1 := (hdiff x hx u).trans (mul_le_mul_of_nonneg_right (min_le_right _ _) (nrm_nonneg u))
    have h2 := nrm_sub_le (jac x *ᵥ u) (jac x *ᵥ u - A u)
    rw [sub_sub_cancel] at h2
    have h3 := hlow u
    have h4 : 1 / c * nrm u = 2 * (σ * nrm u) := by rw [hσ]; ring
    linarith
  · have h1 := (hdiff x hx u).trans (mul_le_mul_of_nonneg_right (min_le_right _ _) (nrm_nonneg u))
    have h2 := nrm_add_le (A u) (jac x *ᵥ u - A u)
    rw [add_sub_cancel] at h2
    have h3 := clm_nrm A u
    linarith
  · have h1 := (hdiff x hx (y - x)).trans (mul_le_mul_of_nonneg_right (min_le_left _ _) (nrm_nonneg _))
    have h2 : ‖f y - f x - A (y - x)‖ ≤ t * ‖y - x‖ := by
      refine k2 (y, x) ?_
      rw [Metric.mem_ball, Prod.dist_eq, dist_eq_norm, dist_eq_norm]
      exact max_lt (hball y hy).2 (hball x hx).2
    have h3 : nrm (f y - f x - A (y - x)) ≤ η / 2 * nrm (y - x) := by
      refine (nrm_le_norm _).trans ?_
      have h4 := mul_le_mul_of_nonneg_left h2 (Real.sqrt_nonneg (n : ℝ))
      have h5 := mul_le_mul htn (norm_le_nrm (y - x)) (norm_nonneg _) hm.le
      have h6 := mul_le_mul_of_nonneg_right (min_le_left (η / 2) σ) (nrm_nonneg (y - x))
      linarith
    have h4 := nrm_sub_le (f y - f x - A (y - x)) (jac x *ᵥ (y - x) - A (y - x))
    rw [sub_sub_sub_cancel_right] at h4
    linarith

/-- One step.  Near a regular solution every step that does not start at the solution is accepted at any damping, the
damping goes down, and the error shrinks by the factor `L / (σ² + L)` up to as little as one likes. -/
theorem C118_step {f : (Fin n → ℝ) → (Fin n → ℝ)} {jac : (Fin n → ℝ) → Matrix (Fin n) (Fin n) ℝ} {v : Fin n → ℝ}
    (hf : ContDiffAt ℝ 1 f v) (hjac : ∀ᶠ x in nhds v, ∀ u, jac x *ᵥ u = fderiv ℝ f x u) (hdet : (jac v).det ≠ 0) :
    ∃ σ > 0, ∀ ρ > 0, ∃ r > 0, ∀ (Lup Ldn eps L_min L_max L : ℝ) (X : Fin n → ℝ), eps ≤ 1 / 10 → 0 < L →
      nrm (X - v) ≤ r → X ≠ v →
      ∃ X' c, lmStep f jac Lup Ldn eps L_min L_max X (f v) (.diag fun _ => 1) L =
          some (X', clampTo (L / Ldn) L_min L_max, c) ∧
        nrm (X' - v) ≤ (L / (σ ^ 2 + L) + ρ) * nrm (X - v) := by
  obtain ⟨σ, hσ, S, hσS, H⟩ := regular_constants hf hjac hdet
  have hS : 0 < S := hσ.trans_le hσS
  refine ⟨σ, hσ, fun ρ hρ => ?_⟩
  set η := min (σ ^ 3 / (4 * S ^ 2)) (σ * ρ) with hη
  have hη0 : 0 < η := lt_min (by positivity) (by positivity)
  obtain ⟨r, hr, h1, h2, h3⟩ := H η hη0
  refine ⟨r, hr, fun Lup Ldn eps L_min L_max L X he hL hX hne => ?_⟩
  have hη' : 4 * S ^ 2 * η ≤ σ ^ 3 := by
    have := min_le_left (σ ^ 3 / (4 * S ^ 2)) (σ * ρ)
    rw [← hη, le_div_iff₀ (by positivity)] at this
    linarith
  obtain ⟨X', L', c, hs, h⟩ := lm_local_step (Lup := Lup) (Ldn := Ldn) (L_min := L_min) (L_max := L_max) hσ hσS hη0.le hη' he
    hL hX h1 h2 h3
  rcases h with ⟨h, -⟩ | ⟨-, hL', -, h⟩
  · exact absurd h hne
  · rw [hL'] at hs
    refine ⟨X', c, hs, ?_⟩
    have hρ' : η / σ ≤ ρ := by
      rw [div_le_iff₀ hσ]
      have := min_le_right (σ ^ 3 / (4 * S ^ 2)) (σ * ρ)
      linarith
    have hLσ : 0 ≤ L / (σ ^ 2 + L) := by positivity
    rcases h with h | h
    · exact h.trans (mul_le_mul_of_nonneg_right (by linarith) (nrm_nonneg _))
    · refine h.trans (mul_le_mul_of_nonneg_right ?_ (nrm_nonneg _))
      rw [add_div]
      refine add_le_add le_rfl (le_trans ?_ hρ')
      rw [div_le_div_iff₀ (by positivity) hσ]
      nlinarith

/-- The whole loop, any number of problems side by side: a problem of the batch started close enough to a regular solution
never gets further away from it, and ends as close as the stopping rule asks up to a constant factor, or after `k` rounds
`q ^ k` times as close as it started; whatever the other problems of the batch are and do. -/
theorem C118_batch {f : (Fin n → ℝ) → (Fin n → ℝ)} {jac : (Fin n → ℝ) → Matrix (Fin n) (Fin n) ℝ} {v : Fin n → ℝ}
    (hf : ContDiffAt ℝ 1 f v) (hjac : ∀ᶠ x in nhds v, ∀ u, jac x *ᵥ u = fderiv ℝ f x u) (hdet : (jac v).det ≠ 0) :
    ∃ r > 0, ∀ L > 0, ∃ q, 0 ≤ q ∧ q < 1 ∧ ∀ (Lup Ldn eps L_min L_max stopping : ℝ) (k B : ℕ) (X Y : Fin B → Fin n → ℝ)
      (b : Fin B), 1 ≤ Ldn → eps ≤ 1 / 10 → 0 < L_min → L_min ≤ L → L < L_max → 0 ≤ stopping →
      Y b = f v → nrm (X b - v) ≤ r →
      ∃ X' L' C', batchLm f jac Lup Ldn eps L_min L_max stopping k X Y (fun _ => .diag fun _ => 1) L = some (X', L', C') ∧
        nrm (X' b - v) ≤ nrm (X b - v) ∧
        nrm (X' b - v) ≤ max (√n * stopping / (1 - q)) (q ^ k * nrm (X b - v)) := by
  obtain ⟨σ, hσ, S, hσS, H⟩ := regular_constants hf hjac hdet
  have hS : 0 < S := hσ.trans_le hσS
  set η := σ ^ 3 / (4 * S ^ 2) with hη
  have hη0 : 0 < η := by positivity
  have hη' : 4 * S ^ 2 * η ≤ σ ^ 3 := by rw [hη, mul_div_cancel₀ _ (by positivity)]
  have hησ : 4 * η ≤ σ := by
    have h0 : σ ^ 2 ≤ S ^ 2 := by gcongr
    have h4 : σ ^ 2 * (4 * η) ≤ σ ^ 2 * σ := by nlinarith
    exact le_of_mul_le_mul_left h4 (by positivity)
  obtain ⟨r, hr, h1, h2, h3⟩ := H η hη0
  refine ⟨r, hr, fun L hL => ?_⟩
  have hq : (L + σ ^ 2 / 2) / (σ ^ 2 + L) < 1 := by
    rw [div_lt_one (by positivity)]
    nlinarith [pow_pos hσ 2]
  refine ⟨(L + σ ^ 2 / 2) / (σ ^ 2 + L), by positivity, hq,
    fun Lup Ldn eps L_min L_max stopping k B X Y b hLdn he hm hmL hLM hst hY hX => ?_⟩
  unfold batchLm
  refine lm_local_loop (v := v) (r := r) (L0 := L) LMThird.chi2 b hst hLM (by positivity) hq
    (fun b' x l hl => lmStep_total hm (hmL.trans hLM.le) x (Y b') hl) ?_ ?_ k X (fun _ => L) _ (fun _ => hL) hX (Or.inr le_rfl)
  · intro x l hl hlL hx
    obtain ⟨x', l', c, hs, h⟩ := lm_local_step (Lup := Lup) (Ldn := Ldn) (L_min := L_min) (L_max := L_max) hσ hσS hη0.le hη' he
      hl hx h1 h2 h3
    refine ⟨x', l', c, by rw [hY]; exact hs, ?_⟩
    rcases h with h | ⟨-, h4, -, h⟩
    · exact Or.inl h
    · refine Or.inr ⟨?_, ?_⟩
      · rw [h4, clampTo]
        refine (min_le_left _ _).trans (max_le ?_ hmL)
        exact (div_le_self hl.le hLdn).trans hlL
      · rcases h with h | h
        · refine h.trans (mul_le_mul_of_nonneg_right ?_ (nrm_nonneg _))
          rw [div_le_div_iff₀ hσ (by positivity)]
          nlinarith [pow_pos hσ 2, mul_pos hσ hL, pow_pos hσ 3]
        · refine h.trans (mul_le_mul_of_nonneg_right ?_ (nrm_nonneg _))
          rw [div_le_div_iff₀ (by positivity) (by positivity)]
          have k1 : σ * η ≤ σ ^ 2 / 4 := by nlinarith
          have k2 := mul_nonneg (sq_nonneg σ) (sub_nonneg.2 hlL)
          nlinarith [mul_pos hσ hσ, mul_pos hl hL]
  · intro l hl
    have hvr : nrm (v - v) ≤ r := by rw [sub_self, nrm_zero]; exact hr.le
    obtain ⟨x', l', c, hs, h⟩ := lm_local_step (Lup := Lup) (Ldn := Ldn) (L_min := L_min) (L_max := L_max) hσ hσS hη0.le hη' he
      hl hvr h1 h2 h3
    rcases h with ⟨-, h⟩ | ⟨h, -⟩
    · rw [h] at hs
      exact ⟨l', c, by rw [hY]; exact hs⟩
    · exact absurd rfl h

/-! ### The image search -/

variable {R : ℝ × ℝ → ℝ × ℝ} {jac : (Fin 2 → ℝ) → Matrix (Fin 2) (Fin 2) ℝ} {v s : ℝ × ℝ}

/-- The square root: started close enough to `1`, the damped steps for `z ^ 2 = 1` come as near to `1` as asked for. -/
example : ∃ r > 0, ∃ q, 0 ≤ q ∧ q < 1 ∧ ∀ (k : ℕ) (x : ℝ), |x - 1| ≤ r →
    ∃ X' L' C', batchLm (fun z : Fin 1 → ℝ => ![z 0 ^ 2]) (fun z => !![2 * z 0]) 9 11 (1 / 10) (1 / 10 ^ 9) (10 ^ 9) 0 k
      (fun _ : Fin 1 => ![x]) (fun _ => ![1]) (fun _ => .diag fun _ => 1) 1 = some (X', L', C') ∧
      |X' 0 0 - 1| ≤ q ^ k * |x - 1| := by
  have hd : ∀ z : Fin 1 → ℝ, HasFDerivAt (fun z : Fin 1 → ℝ => (![z 0 ^ 2] : Fin 1 → ℝ))
      (ContinuousLinearMap.pi fun _ => (2 * z 0) • ContinuousLinearMap.proj (R := ℝ) (φ := fun _ : Fin 1 => ℝ) 0) z := by
    intro z
    refine hasFDerivAt_pi.2 fun i => ?_
    have := ((ContinuousLinearMap.proj (R := ℝ) (φ := fun _ : Fin 1 => ℝ) 0).hasFDerivAt (x := z)).pow 2
    fin_cases i
    simpa using this
  have h1 : ∀ u : Fin 1 → ℝ, nrm u = |u 0| := fun u => by rw [nrm]; simp [dotProduct, Real.sqrt_mul_self_eq_abs]
  obtain ⟨r, hr, H⟩ := C118_batch (f := fun z : Fin 1 → ℝ => ![z 0 ^ 2]) (jac := fun z => !![2 * z 0]) (v := ![1])
    (by refine contDiffAt_pi.2 fun i => ?_; fin_cases i; simp; fun_prop)
    (.of_forall fun z u => by rw [(hd z).fderiv]; ext i; fin_cases i; simp [mulVec, dotProduct]) (by simp)
  obtain ⟨q, h0, hq, H⟩ := H 1 one_pos
  refine ⟨r, hr, q, h0, hq, fun k x hx => ?_⟩
  obtain ⟨X', L', C', h, -, h2⟩ := H 9 11 (1 / 10) (1 / 10 ^ 9) (10 ^ 9) 0 k 1 (fun _ => ![x]) (fun _ => ![1]) 0
    (by norm_num) le_rfl (by norm_num) (by norm_num) (by norm_num) le_rfl (by simp) (by rw [h1]; simpa using hx)
  refine ⟨X', L', C', h, ?_⟩
  rw [h1, h1, mul_zero, zero_div, max_eq_right (by positivity)] at h2
  simpa using h2

theorem vecOf_eta (x : Fin 2 → ℝ) : vecOf (x 0, x 1) = x := by
  funext k; fin_cases k <;> simp [vecOf]

theorem vecMap_contDiffAt (hR : ContDiffAt ℝ 1 R v) :
    ContDiffAt ℝ 1 (fun y : Fin 2 → ℝ => vecOf (R (y 0, y 1))) (vecOf v) := by
  have h1 : ContDiffAt ℝ 1 (fun y : Fin 2 → ℝ => R (y 0, y 1)) (vecOf v) :=
    ContDiffAt.comp (vecOf v) (f := fun y : Fin 2 → ℝ => (y 0, y 1)) (by simpa [vecOf] using hR)
      ((contDiff_apply ℝ ℝ (0 : Fin 2)).prodMk (contDiff_apply ℝ ℝ (1 : Fin 2))).contDiffAt
  refine contDiffAt_pi.2 fun i => ?_
  fin_cases i
  · exact contDiffAt_fst.comp (vecOf v) h1
  · exact contDiffAt_snd.comp (vecOf v) h1

/-- The matrix of the derivative of the lens map, in both notations. -/
theorem vecMap_det {M : M22 ℝ} (hM : HasJac (fun x y => R (x, y)) M.a00 M.a01 M.a10 M.a11 v.1 v.2)
    (hj : ∀ u, jac (vecOf v) *ᵥ u = fderiv ℝ (fun y : Fin 2 → ℝ => vecOf (R (y 0, y 1))) (vecOf v) u) :
    jac (vecOf v) = !![M.a00, M.a01; M.a10, M.a11] := by
  have hfd : HasFDerivAt R _ v := hM.1.prodMk hM.2
  have hp : HasFDerivAt (fun y : Fin 2 → ℝ => (y 0, y 1))
      ((ContinuousLinearMap.proj (R := ℝ) (φ := fun _ : Fin 2 => ℝ) 0).prod
        (ContinuousLinearMap.proj (R := ℝ) (φ := fun _ : Fin 2 => ℝ) 1)) (vecOf v) :=
    (ContinuousLinearMap.proj (R := ℝ) (φ := fun _ : Fin 2 => ℝ) 0).hasFDerivAt.prodMk
      (ContinuousLinearMap.proj (R := ℝ) (φ := fun _ : Fin 2 => ℝ) 1).hasFDerivAt
  have hc := HasFDerivAt.comp (vecOf v) (f := fun y : Fin 2 → ℝ => (y 0, y 1)) (g := R) (by simpa [vecOf] using hfd) hp
  obtain ⟨D0, h0, e0⟩ : ∃ D0 : (Fin 2 → ℝ) →L[ℝ] ℝ,
      HasFDerivAt (fun y : Fin 2 → ℝ => (R (y 0, y 1)).1) D0 (vecOf v) ∧ ∀ u, D0 u = M.a00 * u 0 + M.a01 * u 1 :=
    ⟨_, hc.fst, fun u => by simp [mul_comm]⟩
  obtain ⟨D1, h1, e1⟩ : ∃ D1 : (Fin 2 → ℝ) →L[ℝ] ℝ,
      HasFDerivAt (fun y : Fin 2 → ℝ => (R (y 0, y 1)).2) D1 (vecOf v) ∧ ∀ u, D1 u = M.a10 * u 0 + M.a11 * u 1 :=
    ⟨_, hc.snd, fun u => by simp [mul_comm]⟩
  let D : Fin 2 → (Fin 2 → ℝ) →L[ℝ] ℝ := ![D0, D1]
  have hd : HasFDerivAt (fun y : Fin 2 → ℝ => vecOf (R (y 0, y 1))) (ContinuousLinearMap.pi D) (vecOf v) := by
    refine hasFDerivAt_pi.2 fun i => ?_
    fin_cases i
    · exact h0
    · exact h1
  rw [hd.fderiv] at hj
  ext i j
  have := congrFun (hj (Pi.single j 1)) i
  rw [mulVec_single_one] at this
  rw [show jac (vecOf v) i j = (jac (vecOf v)).col j i from rfl, this]
  fin_cases i <;> fin_cases j <;> simp [D, e0, e1]

/-- The root finder of `forward_raytrace` on any list of starting points: for a start close enough to an image of finite
magnification the result in the same place is no further from the image than the start, and it is within a multiple of the
stopping tolerance `1e-4` of the image, or within `q ^ 50` times the distance of the start. -/
theorem C118_rootfind (hR : ContDiffAt ℝ 1 R v)
    (hjac : ∀ᶠ x in nhds (vecOf v), ∀ u, jac x *ᵥ u = fderiv ℝ (fun y : Fin 2 → ℝ => vecOf (R (y 0, y 1))) x u)
    {M : M22 ℝ} (hM : HasJac (fun x y => R (x, y)) M.a00 M.a01 M.a10 M.a11 v.1 v.2)
    (hdet : M.a00 * M.a11 - M.a01 * M.a10 ≠ 0) :
    ∃ r > 0, ∃ q, 0 ≤ q ∧ q < 1 ∧ ∀ (l : List (ℝ × ℝ)) (b : Fin l.length), dist2 l[b] v ≤ r →
      ∃ l' w, forwardRaytraceRootfind R jac (R v) l = some l' ∧ l'.length = l.length ∧ l'[(b : ℕ)]? = some w ∧
        dist2 w v ≤ dist2 l[b] v ∧
        dist2 w v ≤ max (√2 / 10 ^ 4 / (1 - q)) (q ^ 50 * dist2 l[b] v) := by
  obtain ⟨r, hr, H⟩ := C118_batch (vecMap_contDiffAt hR) hjac (by
    rw [vecMap_det hM hjac.self_of_nhds, det_fin_two_of]; exact hdet)
  obtain ⟨q, hq0, hq1, H⟩ := H 1 one_pos
  refine ⟨r, hr, q, hq0, hq1, fun l b hb => ?_⟩
  obtain ⟨X', L', C', h, h1, h2⟩ := H 9 11 (1 / 10) (1 / 10 ^ 9) (10 ^ 9) (1 / 10 ^ 4) 50 l.length (fun b => vecOf l[b])
    (fun _ => vecOf (R v)) b (by norm_num) (by norm_num) (by norm_num) (by norm_num) (by norm_num) (by norm_num)
    (by simp [vecOf]) (by rw [← dist2_nrm]; exact hb)
  refine ⟨List.ofFn fun b => (X' b 0, X' b 1), (X' b 0, X' b 1), ?_, by simp, ?_, ?_, ?_⟩
  · unfold forwardRaytraceRootfind
    rw [h]
    rfl
  · rw [List.getElem?_ofFn]
    simp
  · rw [dist2_nrm, dist2_nrm, vecOf_eta]
    exact h1
  · rw [dist2_nrm, dist2_nrm, vecOf_eta]
    refine h2.trans (max_le_max (le_of_eq ?_) le_rfl)
    push_cast
    ring

theorem dist2_le_norm (p q : ℝ × ℝ) : dist2 p q ≤ 3 / 2 * ‖p - q‖ := by
  have h2 : √2 ≤ 3 / 2 := Real.sqrt_le_iff.2 ⟨by norm_num, by norm_num⟩
  refine le_trans ?_ (mul_le_mul_of_nonneg_right h2 (norm_nonneg _))
  unfold dist2
  refine Real.sqrt_le_iff.2 ⟨by positivity, ?_⟩
  rw [mul_pow, Real.sq_sqrt (by norm_num)]
  have h3 := norm_fst_le (p - q)
  have h4 := norm_snd_le (p - q)
  rw [Real.norm_eq_abs, Prod.fst_sub] at h3
  rw [Real.norm_eq_abs, Prod.snd_sub] at h4
  nlinarith [sq_abs (p.1 - q.1), sq_abs (p.2 - q.2), abs_nonneg (p.1 - q.1), abs_nonneg (p.2 - q.2)]

theorem prod_norm_le (p q : ℝ × ℝ) : ‖p - q‖ ≤ √((p.1 - q.1) ^ 2 + (p.2 - q.2) ^ 2) := by
  rw [Prod.norm_def]
  refine max_le ?_ ?_ <;> rw [Real.norm_eq_abs] <;> refine Real.abs_le_sqrt ?_
  · rw [Prod.fst_sub]; linarith [sq_nonneg (p.2 - q.2)]
  · rw [Prod.snd_sub]; linarith [sq_nonneg (p.1 - q.1)]

/-- What C59 asks of a root finder, the library's own root finder does. -/
theorem rootfind_hits (hR : ContDiffAt ℝ 1 R v)
    (hjac : ∀ᶠ x in nhds (vecOf v), ∀ u, jac x *ᵥ u = fderiv ℝ (fun y : Fin 2 → ℝ => vecOf (R (y 0, y 1))) x u)
    {M : M22 ℝ} (hM : HasJac (fun x y => R (x, y)) M.a00 M.a01 M.a10 M.a11 v.1 v.2)
    (hdet : M.a00 * M.a11 - M.a01 * M.a10 ≠ 0) {eps : ℝ} (he : 0 < eps) :
    ∃ δ > 0, ∀ h, h ≤ δ → ∀ l : List (ℝ × ℝ), ∀ p ∈ l, ‖p - v‖ ≤ 2 * h →
      ∃ w ∈ (forwardRaytraceRootfind R jac (R v) l).getD [], dist2 w v ≤ 3 * h ∧ dist2 (R w) (R v) < eps := by
  obtain ⟨r, hr, q, -, -, H⟩ := C118_rootfind hR hjac hM hdet
  have hc : ∀ᶠ w in nhds v, ‖R w - R v‖ < eps / 2 := by
    have := Metric.continuousAt_iff'.1 hR.continuousAt (eps / 2) (by positivity)
    simpa [dist_eq_norm] using this
  obtain ⟨ρ, hρ, hball⟩ := Metric.eventually_nhds_iff_ball.1 hc
  refine ⟨min r ρ / 4, by have := lt_min hr hρ; positivity, fun h hh l p hp hpv => ?_⟩
  have m1 := min_le_left r ρ
  have m2 := min_le_right r ρ
  obtain ⟨b, hb, rfl⟩ := List.getElem_of_mem hp
  have h1 := dist2_le_norm l[b] v
  have h0 : 0 ≤ h := by have := norm_nonneg (l[b] - v); linarith
  obtain ⟨l', w, h2, h3, h4, h5, -⟩ := H l ⟨b, hb⟩ (by
    simp only [Fin.getElem_fin]
    linarith)
  simp only [Fin.getElem_fin] at h5
  refine ⟨w, ?_, by linarith, ?_⟩
  · rw [h2, Option.getD_some]
    exact List.mem_of_getElem? h4
  · have hw : ‖w - v‖ ≤ dist2 w v := by
      unfold dist2
      refine (prod_norm_le w v)
    have h6 := hball w (by rw [Metric.mem_ball, dist_eq_norm]; linarith [lt_min hr hρ])
    have h7 := dist2_le_norm (R w) (R v)
    linarith

theorem jac_near (hR : ContDiffAt ℝ 1 R v)
    (hjac : ∀ z, DifferentiableAt ℝ (fun y : Fin 2 → ℝ => vecOf (R (y 0, y 1))) z →
      ∀ u, jac z *ᵥ u = fderiv ℝ (fun y : Fin 2 → ℝ => vecOf (R (y 0, y 1))) z u) :
    ∀ᶠ x in nhds (vecOf v), ∀ u, jac x *ᵥ u = fderiv ℝ (fun y : Fin 2 → ℝ => vecOf (R (y 0, y 1))) x u := by
  have h := (vecMap_contDiffAt hR).eventually (by simp)
  filter_upwards [h] with x hx
  exact hjac x (hx.differentiableAt (by simp))

/-- `forward_raytrace` with its own root finder and derivatives that are right wherever the lens map is differentiable:
finitely many images of finite magnification are all found, each to within `eps` and three grid cells, by every grid that
covers them and is fine enough. -/
theorem C118_images {V : Set (ℝ × ℝ)} (hfin : V.Finite) (hV : V.Nonempty) (himg : ∀ v ∈ V, R v = s)
    (hR : ∀ v ∈ V, ContDiffAt ℝ 1 R v)
    (hjac : ∀ z, DifferentiableAt ℝ (fun y : Fin 2 → ℝ => vecOf (R (y 0, y 1))) z →
      ∀ u, jac z *ᵥ u = fderiv ℝ (fun y : Fin 2 → ℝ => vecOf (R (y 0, y 1))) z u) (M : ℝ × ℝ → M22 ℝ)
    (hM : ∀ v ∈ V, HasJac (fun x y => R (x, y)) (M v).a00 (M v).a01 (M v).a10 (M v).a11 v.1 v.2)
    (hdet : ∀ v ∈ V, (M v).a00 * (M v).a11 - (M v).a01 * (M v).a10 ≠ 0) {eps : ℝ} (he : 0 < eps) :
    ∃ δ > 0, ∀ (x0 y0 fov : ℝ) (n max_depth : ℕ), 0 < fov → 2 ≤ n → fov / ((n : ℝ) - 1) ≤ δ →
      (∀ v ∈ V, |v.1 - x0| + fov / ((n : ℝ) - 1) / 2 ≤ fov / 2 ∧ |v.2 - y0| + fov / ((n : ℝ) - 1) / 2 ≤ fov / 2) →
      (fov / ((n : ℝ) - 1)) ^ 2 / 2 / 4 ^ max_depth < eps ^ 2 →
      (∀ j < max_depth, 1 / 10 ^ 6 < fov / ((n : ℝ) - 1) / 2 ^ j) →
      ∃ l, lensForwardRaytrace s R jac x0 y0 fov n eps max_depth = .ok l ∧
        ∀ v ∈ V, ∃ p ∈ l, dist2 p v < eps + 3 * (fov / ((n : ℝ) - 1)) := by
  obtain ⟨δ1, hδ1, H⟩ := C59_fine_grid_partial hfin hV himg hR M hM hdet
  have hhits : ∃ δ2 > 0, ∀ v ∈ V, ∀ h, h ≤ δ2 → ∀ l : List (ℝ × ℝ), ∀ p ∈ l, ‖p - v‖ ≤ 2 * h →
      ∃ w ∈ (forwardRaytraceRootfind R jac s l).getD [], dist2 w v ≤ 3 * h ∧ dist2 (R w) s < eps := by
    clear H hV
    induction V, hfin using Set.Finite.induction_on with
    | empty => exact ⟨1, one_pos, by simp⟩
    | @insert v V _ _ ih =>
      obtain ⟨r1, h1, h1'⟩ := ih (fun v h => himg v (.inr h)) (fun v h => hR v (.inr h)) (fun v h => hM v (.inr h))
        (fun v h => hdet v (.inr h))
      obtain ⟨r2, h2, h2'⟩ := rootfind_hits (hR v (.inl rfl)) (jac_near (hR v (.inl rfl)) hjac) (hM v (.inl rfl))
        (hdet v (.inl rfl)) he
      rw [himg v (.inl rfl)] at h2'
      refine ⟨min r1 r2, lt_min h1 h2, ?_⟩
      rintro w (rfl | hw) h hh
      · exact h2' h (hh.trans (min_le_right _ _))
      · exact h1' w hw h (hh.trans (min_le_left _ _))
  obtain ⟨δ2, hδ2, H2⟩ := hhits
  refine ⟨min δ1 δ2, lt_min hδ1 hδ2, fun x0 y0 fov n md hf hn hδ hin hdep htol => ?_⟩
  exact H _ x0 y0 fov eps (3 * (fov / ((n : ℝ) - 1))) n md hf hn he (hδ.trans (min_le_left _ _)) hin hdep htol
    (fun v hv l p hp hpv => H2 v hv _ (hδ.trans (min_le_right _ _)) l p hp hpv)

/-- What an image of a source off the centre of a point mass is like. -/
theorem point_image_regular {xl yl Rein bx bys : ℝ} (hRe : 0 < Rein) (hb : (bx, bys) ≠ (xl, yl))
    (hray : ∀ x y b, raytraceOpt (pointDeflectionOpt xl yl Rein 0) x y = some b → R (x, y) = b)
    (hv : raytraceOpt (pointDeflectionOpt xl yl Rein 0) v.1 v.2 = some (bx, bys)) :
    ContDiffAt ℝ 1 R v ∧ ∃ M : M22 ℝ, HasJac (fun x y => R (x, y)) M.a00 M.a01 M.a10 M.a11 v.1 v.2 ∧
      M.a00 * M.a11 - M.a01 * M.a10 ≠ 0 := by
  have hne : v ≠ (xl, yl) := by
    rintro rfl
    simp [raytraceOpt, pointDeflectionOpt, translateRotate, sqrtOpt, divOpt] at hv
  have hRe' : ∀ v : ℝ × ℝ, v ≠ (xl, yl) → R v = rayOf (pointDeflection xl yl Rein 0) v.1 v.2 :=
    fun v hv => hray v.1 v.2 _ (point_ray_ne (x := v.1) (y := v.2) hv)
  have hev : R =ᶠ[nhds v] fun p : ℝ × ℝ => rayOf (pointDeflection xl yl Rein 0) p.1 p.2 :=
    (isOpen_ne.eventually_mem hne).mono fun p hp => hRe' p hp
  refine ⟨(point_contDiffAt hne).congr_of_eventuallyEq hev, ?_⟩
  obtain ⟨M, hM, hmag⟩ := point_jac (Rein := Rein) (x := v.1) (y := v.2) hne
  refine ⟨M, ⟨?_, ?_⟩, ?_⟩
  · exact HasFDerivAt.congr_of_eventuallyEq hM.1 (hev.mono fun p hp => by simp only [hp])
  · exact HasFDerivAt.congr_of_eventuallyEq hM.2 (hev.mono fun p hp => by simp only [hp])
  · intro h0
    have hr0 := radius_pos (sub_ne_zero_pair (bx := v.1) (bys := v.2) hne)
    have hsq := Real.sqrt_pos.1 hr0
    rw [show pixelMagnification M = 0 by simp [pixelMagnification, h0], div_zero, eq_comm, abs_eq_zero, sub_eq_zero] at hmag
    have h4 : Rein / √((v.1 - xl) ^ 2 + (v.2 - yl) ^ 2) = 1 :=
      (pow_eq_one_iff_of_nonneg (by positivity) (by norm_num)).1 hmag.symm
    have h5 := (div_eq_one_iff_eq hr0.ne').1 h4
    have hb' := hv
    rw [point_ray_ne (x := v.1) (y := v.2) hne, Option.some.injEq] at hb'
    apply hb
    rw [← hb']
    simp only [rayOf, pointDeflection, translateRotate, add_zero, ← h5]
    ext <;> simp <;> field_simp <;> ring

/-- A point mass with the source off its centre: below some spacing, `forward_raytrace` on every grid that covers the two
images finds both, whatever the lens map and its derivatives are taken to be at the centre of the lens. -/
theorem C118_point (xl yl Rein bx bys : ℝ) (hRe : 0 < Rein) (hb : (bx, bys) ≠ (xl, yl))
    (hray : ∀ x y b, raytraceOpt (pointDeflectionOpt xl yl Rein 0) x y = some b → R (x, y) = b)
    (hjac : ∀ z, DifferentiableAt ℝ (fun y : Fin 2 → ℝ => vecOf (R (y 0, y 1))) z →
      ∀ u, jac z *ᵥ u = fderiv ℝ (fun y : Fin 2 → ℝ => vecOf (R (y 0, y 1))) z u) {eps : ℝ} (he : 0 < eps) :
    ∃ δ > 0, ∀ (x0 y0 fov : ℝ) (n max_depth : ℕ), 0 < fov → 2 ≤ n → fov / ((n : ℝ) - 1) ≤ δ →
      (∀ x y, raytraceOpt (pointDeflectionOpt xl yl Rein 0) x y = some (bx, bys) →
        |x - x0| + fov / ((n : ℝ) - 1) / 2 ≤ fov / 2 ∧ |y - y0| + fov / ((n : ℝ) - 1) / 2 ≤ fov / 2) →
      (fov / ((n : ℝ) - 1)) ^ 2 / 2 / 4 ^ max_depth < eps ^ 2 →
      (∀ j < max_depth, 1 / 10 ^ 6 < fov / ((n : ℝ) - 1) / 2 ^ j) →
      ∃ l, lensForwardRaytrace (bx, bys) R jac x0 y0 fov n eps max_depth = .ok l ∧
        ∀ x y, raytraceOpt (pointDeflectionOpt xl yl Rein 0) x y = some (bx, bys) →
          ∃ p ∈ l, dist2 p (x, y) < eps + 3 * (fov / ((n : ℝ) - 1)) := by
  set V : Set (ℝ × ℝ) := {v | raytraceOpt (pointDeflectionOpt xl yl Rein 0) v.1 v.2 = some (bx, bys)} with hVd
  have hfin : V.Finite := by
    have h := fun v : ℝ × ℝ => (C78_point xl yl Rein bx bys v.1 v.2 hRe hb).1
    exact Set.Finite.subset (Set.toFinite {_, _}) h
  have hne : V.Nonempty := by
    have h := (C78_point xl yl Rein bx bys _ _ hRe hb).2 (Or.inl rfl)
    exact ⟨(_, _), h⟩
  have hreg : ∀ v : ℝ × ℝ, ∃ M : M22 ℝ, v ∈ V → HasJac (fun x y => R (x, y)) M.a00 M.a01 M.a10 M.a11 v.1 v.2 ∧
      M.a00 * M.a11 - M.a01 * M.a10 ≠ 0 := by
    intro v
    by_cases hv : v ∈ V
    · obtain ⟨-, M, h⟩ := point_image_regular hRe hb hray hv
      exact ⟨M, fun _ => h⟩
    · exact ⟨⟨0, 0, 0, 0⟩, fun h => absurd h hv⟩
  choose M hM using hreg
  obtain ⟨δ, hδ, H⟩ := C118_images (R := R) (jac := jac) hfin hne (s := (bx, bys)) (fun v hv => hray v.1 v.2 _ hv)
    (fun v hv => (point_image_regular hRe hb hray hv).1) hjac M (fun v hv => (hM v hv).1) (fun v hv => (hM v hv).2) he
  refine ⟨δ, hδ, fun x0 y0 fov n md hf hn hsp hin hdep htol => ?_⟩
  obtain ⟨l, hl, hp⟩ := H x0 y0 fov n md hf hn hsp (fun v hv => hin v.1 v.2 hv) hdep htol
  exact ⟨l, hl, fun x y hxy => hp (x, y) hxy⟩

/-- A unit point mass, the source at `(3/2, 0)`, eps one hundredth: both images come out. -/
example (R : ℝ × ℝ → ℝ × ℝ) (hray : ∀ x y b, raytraceOpt (pointDeflectionOpt 0 0 1 0) x y = some b → R (x, y) = b)
    (jac : (Fin 2 → ℝ) → Matrix (Fin 2) (Fin 2) ℝ)
    (hjac : ∀ z, DifferentiableAt ℝ (fun y : Fin 2 → ℝ => vecOf (R (y 0, y 1))) z →
      ∀ u, jac z *ᵥ u = fderiv ℝ (fun y : Fin 2 → ℝ => vecOf (R (y 0, y 1))) z u) :
    ∃ n, ∀ m ≥ n, ∃ l, lensForwardRaytrace (3 / 2, 0) R jac 0 0 6 m (1 / 100) 0 = .ok l ∧
      (∃ p ∈ l, dist2 p (2, 0) < 2 / 100) ∧ ∃ p ∈ l, dist2 p (-1 / 2, 0) < 2 / 100 := by
  have himg : ∀ x y : ℝ, raytraceOpt (pointDeflectionOpt 0 0 1 0) x y = some (3 / 2, 0) ↔
      (x, y) = (2, 0) ∨ (x, y) = (-1 / 2, 0) := by
    intro x y
    have := C78_point 0 0 1 (3 / 2) 0 x y one_pos (by simp)
    simp only [sub_zero] at this
    rw [show √((3 / 2 : ℝ) ^ 2 + 0 ^ 2) = 3 / 2 by rw [show (3 / 2 : ℝ) ^ 2 + 0 ^ 2 = (3 / 2) ^ 2 by norm_num]; exact Real.sqrt_sq (by norm_num),
      show √((3 / 2 : ℝ) ^ 2 + 4 * 1 ^ 2) = 5 / 2 by rw [show (3 / 2 : ℝ) ^ 2 + 4 * 1 ^ 2 = (5 / 2) ^ 2 by norm_num]; exact Real.sqrt_sq (by norm_num)] at this
    rw [this]
    norm_num
  obtain ⟨δ, hδ, H⟩ := C118_point (jac := jac) 0 0 1 (3 / 2) 0 one_pos (by simp) hray hjac (eps := 1 / 100) (by norm_num)
  obtain ⟨k, hk⟩ := exists_nat_gt (6 / min δ (1 / 1000))
  have hmin : 0 < min δ (1 / 1000) := lt_min hδ (by norm_num)
  refine ⟨k + 2, fun m hm => ?_⟩
  have hm' : (k : ℝ) + 2 ≤ m := by exact_mod_cast hm
  have hk0 : (0 : ℝ) ≤ k := Nat.cast_nonneg k
  have hm1 : 0 < (m : ℝ) - 1 := by linarith
  have hsp : 6 / ((m : ℝ) - 1) ≤ min δ (1 / 1000) := by
    rw [div_lt_iff₀ hmin] at hk
    rw [div_le_iff₀ hm1]
    nlinarith
  have hs1 := hsp.trans (min_le_right _ _)
  have hs0 : 0 < 6 / ((m : ℝ) - 1) := by positivity
  obtain ⟨l, hl, hp⟩ := H 0 0 6 m 0 (by norm_num) (by omega) (hsp.trans (min_le_left _ _)) (by
    intro x y h
    rcases (himg x y).1 h with h | h <;> obtain ⟨rfl, rfl⟩ := Prod.mk.inj h
    · rw [sub_zero, sub_zero, abs_zero, abs_of_pos two_pos]; constructor <;> linarith
    · rw [sub_zero, sub_zero, abs_zero, abs_of_neg (by norm_num)]; constructor <;> linarith)
    (by rw [pow_zero, div_one]; nlinarith) (by simp)
  refine ⟨l, hl, ?_, ?_⟩
  · obtain ⟨p, h1, h2⟩ := hp 2 0 ((himg _ _).2 (Or.inl rfl))
    exact ⟨p, h1, h2.trans_le (by linarith)⟩
  · obtain ⟨p, h1, h2⟩ := hp (-1 / 2) 0 ((himg _ _).2 (Or.inr rfl))
    exact ⟨p, h1, h2.trans_le (by linarith)⟩

end Caustics
