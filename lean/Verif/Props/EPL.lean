import Verif.Lemmas.EPLGrad
import Verif.Props.LensSimple
import Mathlib.Analysis.SpecificLimits.Normed

/-!
The elliptical power law: independence of the chunk size, deflection against potential and
convergence, limits.

The deflection is a series cut after `n_iter` terms, so its divergence and the gradient of the
potential only match up to the first omitted term; the theorems give that error exactly and bound
it by `n_iter f ^ n_iter`, `f = (1-q)/(1+q) < 1`.
-/

open Real Finset

namespace Caustics

/-- The chunk sizes for which the chunked evaluation is correct: `None`, 1, or more than half of and
at most `n_iter`. -/
def ChunkOk (N : ℕ) (cs : Option ℕ) : Prop :=
  cs = none ∨ cs = some 1 ∨ ∃ c, cs = some c ∧ N < 2 * c ∧ c ≤ N

/-! ### Chunk size -/

/-- The full claim: the deflection is a value that does not depend on the chunk size. -/
def C26_statement : Prop :=
  ∀ (x0 y0 q phi Rein t x y : ℝ) (N c : ℕ), 1 ≤ N → 1 ≤ c →
    ∃ a, eplDeflection x0 y0 q phi Rein t N (some c) x y = .ok a ∧
      eplDeflection x0 y0 q phi Rein t N none x y = .ok a

/-- For those chunk sizes the deflection and potential are the ones with the default. -/
theorem C26_partial (x0 y0 q phi Rein t x y : ℝ) (N : ℕ) (hN : 1 ≤ N) (cs : Option ℕ)
    (hcs : ChunkOk N cs) :
    eplDeflection x0 y0 q phi Rein t N cs x y = eplDeflection x0 y0 q phi Rein t N none x y ∧
    eplPotential x0 y0 q phi Rein t N cs x y = eplPotential x0 y0 q phi Rein t N none x y := by
  have : eplDeflection x0 y0 q phi Rein t N cs x y = eplDeflection x0 y0 q phi Rein t N none x y := by
    simp only [eplDeflection, eplFrame, rOmega_eq _ t q N hN cs hcs,
      rOmega_eq _ t q N hN none (Or.inl rfl)]
  exact ⟨this, by simp only [eplPotential, this]⟩

/-- Any chunk size above `n_iter` (other than 1) is a `TypeError`. -/
theorem C26_fails_type_error (x0 y0 q phi Rein t x y : ℝ) (N c : ℕ) (hc : N < c) (h1 : c ≠ 1) :
    eplDeflection x0 y0 q phi Rein t N (some c) x y = .error .typeError := by
  have hd : N / c = 0 := Nat.div_eq_of_lt hc
  simp only [eplDeflection, eplFrame, rOmega, Option.getD_some, if_neg h1,
    if_neg (show c ≠ 0 by omega), hd, List.range_zero, List.foldlM_nil]
  rfl

/-- With two chunks the second half of the series is added twice: four terms in chunks of two at
`(1, 0)` for `q = 1/2`, `t = 1`, not the plain sum `1 - 1/9 + 1/45 - 1/189` but `5/3969` more. -/
theorem C26_fails : ¬ C26_statement := by
  intro h
  obtain ⟨a, h1, -⟩ := h 0 0 1 0 1 1 1 0 1 2 (by norm_num) (by norm_num)
  rw [C26_fails_type_error 0 0 1 0 1 1 1 0 1 2 (by norm_num) (by norm_num)] at h1
  cases h1

theorem C26_fails_value :
    rOmega 1 1 (1 / 2) 4 none = .ok (1 - 1 / 9 + 1 / 45 - 1 / 189) ∧
    rOmega 1 1 (1 / 2) 4 (some 2) = .ok (1 - 1 / 9 + 1 / 45 - 1 / 189 + 5 / 3969) := by
  constructor
  · rw [rOmega_eq 1 1 (1 / 2) 4 (by norm_num) none (Or.inl rfl)]
    congr 1
    simp [eplSum, sum_range_succ, eplCoef, prod_range_succ, eplFactor]
    norm_num
  · simp only [rOmega, Option.getD_some]
    norm_num [List.range_succ, rOmegaChunk, cumprod, eplFactor, List.foldlM, pyGet, pyIdx,
      List.scanl]
    change Except.ok _ = Except.ok _
    congr 1
    norm_num
    change (1 : ℂ) + (-(89 / 945) + -(-(1 / 189) * (5 / 21))) = 18001 / 19845
    norm_num

/-! ### Deflection, potential and convergence -/

/-- The field in the frame of the lens. -/
noncomputable def eplField (q Rein t : ℝ) (N : ℕ) (x y : ℝ) : ℂ :=
  ((2 / (1 + q) * (Rein * √q / √(q ^ 2 * x ^ 2 + y ^ 2)) ^ t : ℝ) : ℂ)
    * eplSum (eplZ q x y) (eplPhi q x y) t N

theorem eplFrame_eq (q Rein t : ℝ) (N : ℕ) (hN : 1 ≤ N) (cs : Option ℕ) (hcs : ChunkOk N cs)
    (x y : ℝ) :
    eplFrame q Rein t N cs x y = .ok ((eplField q Rein t N x y).re, (eplField q Rein t N x y).im) := by
  unfold eplFrame
  simp only [rOmega_eq _ t q N hN cs hcs]
  change (if eplZ q x y = 0 then Except.ok (0, 0) else _) = _
  have e : eplSum (⟨q * x, y⟩ : ℂ) ((⟨q * x, y⟩ : ℂ) / (starRingEnd ℂ) ⟨q * x, y⟩
      * ((-((1 - q) / (1 + q)) : ℝ) : ℂ)) t N = eplSum (eplZ q x y) (eplPhi q x y) t N := by
    rw [show (⟨q * x, y⟩ : ℂ) = eplZ q x y from rfl, conj_eplZ]
    rfl
  by_cases h0 : eplZ q x y = 0
  · rw [if_pos h0]
    have : eplField q Rein t N x y = 0 := by simp [eplField, eplSum, h0]
    rw [this]
    simp
  · rw [if_neg h0, e]
    have hn := norm_eplZ q x y
    change Except.ok (_, _) = _
    simp only [eplField]
    rw [show ‖(⟨q * x, y⟩ : ℂ)‖ = √(q ^ 2 * x ^ 2 + y ^ 2) from hn]

theorem eplFactor_mem {t : ℝ} (h0 : 0 < t) (h2 : t < 2) (i : ℕ) :
    0 < eplFactor t (i + 1) ∧ eplFactor t (i + 1) ≤ 1 := by
  have hi : (0 : ℝ) ≤ i := Nat.cast_nonneg i
  unfold eplFactor
  push_cast
  have hd : 0 < 2 * ((i : ℝ) + 1) + (2 - t) := by linarith
  constructor
  · apply div_pos _ hd; linarith
  · rw [div_le_one hd]; linarith

theorem eplCoef_mem {t : ℝ} (h0 : 0 < t) (h2 : t < 2) (n : ℕ) : 0 < eplCoef t n ∧ eplCoef t n ≤ 1 := by
  unfold eplCoef
  refine ⟨prod_pos fun i _ => (eplFactor_mem h0 h2 i).1,
    prod_le_one (fun i _ => (eplFactor_mem h0 h2 i).1.le) fun i _ => (eplFactor_mem h0 h2 i).2⟩

theorem norm_eplPhi (q : ℝ) (hq : 0 < q) (hq1 : q ≤ 1) {x y : ℝ} (h : x ≠ 0 ∨ y ≠ 0) :
    ‖eplPhi q x y‖ = (1 - q) / (1 + q) := by
  obtain ⟨h1, h2⟩ := eplZ_ne q hq h
  have hn : ‖eplZb q x y‖ = ‖eplZ q x y‖ := by rw [← conj_eplZ, RCLike.norm_conj]
  have hf : 0 ≤ (1 - q) / (1 + q) := div_nonneg (by linarith) (by linarith)
  rw [eplPhi, norm_mul, norm_div, hn, div_self (norm_ne_zero_iff.mpr h1), one_mul,
    Complex.norm_real, norm_neg, Real.norm_of_nonneg hf]

theorem hasGrad_re {u : ℝ → ℝ → ℂ} {a b : ℂ} {x y : ℝ} (h : HasGrad u a b x y) :
    HasGrad (fun x y => (u x y).re) a.re b.re x y := h.clm Complex.reCLM

theorem hasGrad_im {u : ℝ → ℝ → ℂ} {a b : ℂ} {x y : ℝ} (h : HasGrad u a b x y) :
    HasGrad (fun x y => (u x y).im) a.im b.im x y := h.clm Complex.imCLM

/-- Deflection, potential and convergence of the EPL lens.  At every position but the centre the
deflection has a Jacobian whose half trace is the returned convergence, whose curl is zero, and the
potential has the deflection as gradient, up to errors bounded by `n_iter f ^ n_iter` times the
local density scale; the potential error is exactly the curl times the perpendicular offset. -/
theorem C24_epl_partial (x0 y0 q phi Rein t : ℝ) (N : ℕ) (cs : Option ℕ) (hq : 0 < q) (hq1 : q ≤ 1)
    (hR : 0 < Rein) (ht0 : 0 < t) (ht : t < 2) (hN : 1 ≤ N) (hcs : ChunkOk N cs) :
    ∃ (α : ℝ → ℝ → ℝ × ℝ) (ψ : ℝ → ℝ → ℝ),
      (∀ x y, eplDeflection x0 y0 q phi Rein t N cs x y = .ok (α x y)) ∧
      (∀ x y, eplPotential x0 y0 q phi Rein t N cs x y = .ok (ψ x y)) ∧
      ∀ x y, (x, y) ≠ (x0, y0) →
        ∃ axx axy ayx ayy, HasJac α axx axy ayx ayy x y ∧
          |(axx + ayy) / 2 - eplConvergence x0 y0 q phi Rein t 0 x y|
            ≤ 2 / (2 - t) * eplConvergence x0 y0 q phi Rein t 0 x y * (N * ((1 - q) / (1 + q)) ^ N) ∧
          |ayx - axy|
            ≤ 4 / (2 - t) * eplConvergence x0 y0 q phi Rein t 0 x y * (N * ((1 - q) / (1 + q)) ^ N) ∧
          HasGrad ψ ((α x y).1 + (y - y0) * (ayx - axy) / (2 - t))
            ((α x y).2 - (x - x0) * (ayx - axy) / (2 - t)) x y := by
  -- the fields
  set v : ℝ → ℝ → ℝ × ℝ := fun x y => ((eplField q Rein t N x y).re, (eplField q Rein t N x y).im)
    with hv
  refine ⟨fun x y => derotate (v (translateRotate x y x0 y0 (some phi)).1
      (translateRotate x y x0 y0 (some phi)).2).1
      (v (translateRotate x y x0 y0 (some phi)).1 (translateRotate x y x0 y0 (some phi)).2).2 (some phi),
    fun x y => ((translateRotate x y x0 y0 (some phi)).1
        * (v (translateRotate x y x0 y0 (some phi)).1 (translateRotate x y x0 y0 (some phi)).2).1
      + (translateRotate x y x0 y0 (some phi)).2
        * (v (translateRotate x y x0 y0 (some phi)).1 (translateRotate x y x0 y0 (some phi)).2).2)
      / (2 - t), ?_, ?_, ?_⟩
  · intro x y
    simp only [eplDeflection, eplFrame_eq q Rein t N hN cs hcs]
    rfl
  · intro x y
    simp only [eplPotential, eplDeflection, eplFrame_eq q Rein t N hN cs hcs]
    change Except.ok _ = Except.ok _
    congr 2
    have cs := sin_sq_add_cos_sq phi
    simp only [derotate, cos_neg, sin_neg, hv]
    generalize (eplField q Rein t N _ _).re = A
    generalize (eplField q Rein t N _ _).im = B
    linear_combination ((translateRotate x y x0 y0 (some phi)).1 * A
      + (translateRotate x y x0 y0 (some phi)).2 * B) * cs
  intro x y hxy
  have h' := sub_ne_zero_or hxy
  -- the frame position is not the origin
  have hp : (translateRotate x y x0 y0 (some phi)).1 ≠ 0
      ∨ (translateRotate x y x0 y0 (some phi)).2 ≠ 0 := by
    by_contra hc
    push Not at hc
    simp only [translateRotate] at hc
    have cs := sin_sq_add_cos_sq phi
    have e1 : x - x0 = 0 := by linear_combination (cos phi) * hc.1 - (sin phi) * hc.2 - (x - x0) * cs
    have e2 : y - y0 = 0 := by linear_combination (sin phi) * hc.1 + (cos phi) * hc.2 - (y - y0) * cs
    rcases h' with h' | h' <;> contradiction
  set X := (translateRotate x y x0 y0 (some phi)).1 with hX
  set Y := (translateRotate x y x0 y0 (some phi)).2 with hY
  have hb : 0 < Rein * √q := mul_pos hR (sqrt_pos.mpr hq)
  obtain ⟨ux, uy, hg, hD, hE⟩ := hasDE_series q hp hb ht N hN (hq := hq)
  change HasGrad (eplField q Rein t N) ux uy X Y at hg
  change _ = (1 - (t : ℂ)) * eplField q Rein t N X Y at hE
  have g1 := hasGrad_re hg
  have g2 := hasGrad_im hg
  set P := (Rein * √q / √(q ^ 2 * X ^ 2 + Y ^ 2)) ^ t with hP
  have hP0 : 0 ≤ P := rpow_nonneg (div_nonneg hb.le (sqrt_nonneg _)) _
  have hκ : eplConvergence x0 y0 q phi Rein t 0 x y = (2 - t) / 2 * P := by
    simp only [eplConvergence, hP, ← hX, ← hY]
    congr 4
    ring
  -- divergence and curl in the frame
  have hdiv : ux.re + uy.im = (2 - t) * P
      - 2 * P * (eplCoef t (N - 1) * ((N - 1 : ℕ) + t / 2)) * (eplPhi q X Y ^ N).re := by
    have := congrArg Complex.re hD
    simp only [Complex.sub_re, Complex.mul_re, Complex.I_re, Complex.I_im, zero_mul, one_mul,
      zero_sub, sub_neg_eq_add] at this
    rw [this]
    have e : 2 * (P : ℂ) * (1 - t / 2 - (eplCoef t (N - 1) : ℂ) * ((N - 1 : ℕ) + t / 2)
        * eplPhi q X Y ^ N)
        = (((2 - t) * P : ℝ) : ℂ) - ((2 * P * (eplCoef t (N - 1) * ((N - 1 : ℕ) + t / 2)) : ℝ) : ℂ)
          * eplPhi q X Y ^ N := by
      push_cast; ring
    refine (congrArg Complex.re e).trans ?_
    rw [Complex.sub_re, Complex.re_ofReal_mul, Complex.ofReal_re]
  have hcurl : ux.im - uy.re
      = - (2 * P * (eplCoef t (N - 1) * ((N - 1 : ℕ) + t / 2)) * (eplPhi q X Y ^ N).im) := by
    have := congrArg Complex.im hD
    simp only [Complex.sub_im, Complex.mul_im, Complex.I_re, Complex.I_im, zero_mul, one_mul,
      zero_add] at this
    rw [this]
    have e : 2 * (P : ℂ) * (1 - t / 2 - (eplCoef t (N - 1) : ℂ) * ((N - 1 : ℕ) + t / 2)
        * eplPhi q X Y ^ N)
        = (((2 - t) * P : ℝ) : ℂ) - ((2 * P * (eplCoef t (N - 1) * ((N - 1 : ℕ) + t / 2)) : ℝ) : ℂ)
          * eplPhi q X Y ^ N := by
      push_cast; ring
    refine (congrArg Complex.im e).trans ?_
    rw [Complex.sub_im, Complex.im_ofReal_mul, Complex.ofReal_im, zero_sub]
  -- size of the omitted term
  have hphi : ‖eplPhi q X Y ^ N‖ = ((1 - q) / (1 + q)) ^ N := by
    rw [norm_pow, norm_eplPhi q hq hq1 hp]
  have hf0 : 0 ≤ ((1 - q) / (1 + q)) ^ N := pow_nonneg (div_nonneg (by linarith) (by linarith)) _
  obtain ⟨hc0, hc1⟩ := eplCoef_mem ht0 ht (N - 1)
  have hN' : ((N - 1 : ℕ) : ℝ) + t / 2 ≤ N := by
    rw [Nat.cast_sub hN]; push_cast; linarith
  have hN0 : 0 ≤ ((N - 1 : ℕ) : ℝ) + t / 2 := by positivity
  have hcoef : eplCoef t (N - 1) * ((N - 1 : ℕ) + t / 2) ≤ N := by
    calc eplCoef t (N - 1) * ((N - 1 : ℕ) + t / 2) ≤ 1 * (((N - 1 : ℕ) : ℝ) + t / 2) :=
          mul_le_mul_of_nonneg_right hc1 hN0
      _ ≤ N := by rw [one_mul]; exact hN'
  have hcoef0 : 0 ≤ eplCoef t (N - 1) * ((N - 1 : ℕ) + t / 2) := mul_nonneg hc0.le hN0
  have hbound : ∀ w : ℝ, |w| ≤ ((1 - q) / (1 + q)) ^ N →
      |2 * P * (eplCoef t (N - 1) * ((N - 1 : ℕ) + t / 2)) * w|
        ≤ 2 * P * (N * ((1 - q) / (1 + q)) ^ N) := by
    intro w hw
    rw [abs_mul, abs_of_nonneg (by positivity), mul_assoc]
    refine mul_le_mul_of_nonneg_left ?_ (by positivity)
    exact mul_le_mul hcoef hw (abs_nonneg _) (Nat.cast_nonneg _)
  have hre : |(eplPhi q X Y ^ N).re| ≤ ((1 - q) / (1 + q)) ^ N := hphi ▸ Complex.abs_re_le_norm _
  have him : |(eplPhi q X Y ^ N).im| ≤ ((1 - q) / (1 + q)) ^ N := hphi ▸ Complex.abs_im_le_norm _
  -- to the sky
  have k1 := hasGrad_frame (x0 := x0) (y0 := y0) (phi := phi) (x := x) (y := y) g1
  have k2 := hasGrad_frame (x0 := x0) (y0 := y0) (phi := phi) (x := x) (y := y) g2
  have j1 := (k1.mul (HasGrad.const (cos phi) x y)).sub (k2.mul (HasGrad.const (sin phi) x y))
  have j2 := (k1.mul (HasGrad.const (sin phi) x y)).add (k2.mul (HasGrad.const (cos phi) x y))
  have csq := sin_sq_add_cos_sq phi
  -- the Jacobian on the sky has the same trace and curl
  refine ⟨_, _, _, _, ⟨j1, j2⟩, ?_, ?_, ?_⟩
  · simp only [derotate, mul_zero, add_zero]
    have e : ((ux.re * cos phi - uy.re * sin phi) * cos phi
        - (ux.im * cos phi - uy.im * sin phi) * sin phi
        + ((ux.re * sin phi + uy.re * cos phi) * sin phi
        + (ux.im * sin phi + uy.im * cos phi) * cos phi)) = ux.re + uy.im := by
      linear_combination (ux.re + uy.im) * csq
    rw [e, hκ, hdiv]
    have := hbound _ hre
    have h2t : 0 < 2 - t := by linarith
    have e2 : 2 / (2 - t) * ((2 - t) / 2 * P) * (N * ((1 - q) / (1 + q)) ^ N)
        = P * (N * ((1 - q) / (1 + q)) ^ N) := by field_simp
    rw [e2]
    rw [show ((2 - t) * P - 2 * P * (eplCoef t (N - 1) * ((N - 1 : ℕ) + t / 2))
        * (eplPhi q X Y ^ N).re) / 2 - (2 - t) / 2 * P
        = -(2 * P * (eplCoef t (N - 1) * ((N - 1 : ℕ) + t / 2)) * (eplPhi q X Y ^ N).re) / 2 by ring,
      abs_div, abs_neg, abs_two]
    linarith
  · simp only [derotate, mul_zero, add_zero]
    have e : (ux.re * cos phi - uy.re * sin phi) * sin phi
        + (ux.im * cos phi - uy.im * sin phi) * cos phi
        - ((ux.re * sin phi + uy.re * cos phi) * cos phi
        - (ux.im * sin phi + uy.im * cos phi) * sin phi) = ux.im - uy.re := by
      linear_combination (ux.im - uy.re) * csq
    rw [e, hκ, hcurl, abs_neg]
    have h2t : 0 < 2 - t := by linarith
    have e2 : 4 / (2 - t) * ((2 - t) / 2 * P) * (N * ((1 - q) / (1 + q)) ^ N)
        = 2 * P * (N * ((1 - q) / (1 + q)) ^ N) := by field_simp; ring
    rw [e2]
    exact hbound _ him
  · -- the potential
    have h2t : 2 - t ≠ 0 := by linarith
    have gX := HasGrad.fst X Y
    have gY := HasGrad.snd X Y
    have hpot := (((gX.mul g1).add (gY.mul g2)).mul (HasGrad.const (2 - t)⁻¹ X Y))
    have hE1 : X * ux.re + Y * uy.re = (1 - t) * (eplField q Rein t N X Y).re := by
      have h1 := congrArg Complex.re hE
      have e1 : ((X : ℂ) * ux + Y * uy).re = X * ux.re + Y * uy.re := by
        rw [Complex.add_re, Complex.re_ofReal_mul, Complex.re_ofReal_mul]
      have e2 : ((1 - (t : ℂ)) * eplField q Rein t N X Y).re
          = (1 - t) * (eplField q Rein t N X Y).re := by
        rw [show (1 - (t : ℂ)) = ((1 - t : ℝ) : ℂ) by push_cast; ring, Complex.re_ofReal_mul]
      rw [e1, e2] at h1
      exact h1
    have hE2 : X * ux.im + Y * uy.im = (1 - t) * (eplField q Rein t N X Y).im := by
      have h1 := congrArg Complex.im hE
      have e1 : ((X : ℂ) * ux + Y * uy).im = X * ux.im + Y * uy.im := by
        rw [Complex.add_im, Complex.im_ofReal_mul, Complex.im_ofReal_mul]
      have e2 : ((1 - (t : ℂ)) * eplField q Rein t N X Y).im
          = (1 - t) * (eplField q Rein t N X Y).im := by
        rw [show (1 - (t : ℂ)) = ((1 - t : ℝ) : ℂ) by push_cast; ring, Complex.im_ofReal_mul]
      rw [e1, e2] at h1
      exact h1
    have hpx : HasGrad (fun x y => (x * (v x y).1 + y * (v x y).2) / (2 - t))
        ((eplField q Rein t N X Y).re + Y * (ux.im - uy.re) / (2 - t))
        ((eplField q Rein t N X Y).im - X * (ux.im - uy.re) / (2 - t)) X Y := by
      simp only [div_eq_mul_inv _ (2 - t)]
      refine hpot.congr ?_ ?_
      · field_simp
        linear_combination hE1
      · field_simp
        linear_combination hE2
    have hsky := hasGrad_frame (x0 := x0) (y0 := y0) (phi := phi) (x := x) (y := y) hpx
    have ecurl : (ux.re * cos phi - uy.re * sin phi) * sin phi
        + (ux.im * cos phi - uy.im * sin phi) * cos phi
        - ((ux.re * sin phi + uy.re * cos phi) * cos phi
        - (ux.im * sin phi + uy.im * cos phi) * sin phi) = ux.im - uy.re := by
      linear_combination (ux.im - uy.re) * csq
    have hXe : X = (x - x0) * cos phi + (y - y0) * sin phi := by rw [hX]; rfl
    have hYe : Y = (y - y0) * cos phi - (x - x0) * sin phi := by rw [hY]; rfl
    refine hsky.congr ?_ ?_
    · simp only [derotate, mul_zero, add_zero]
      rw [ecurl]
      change ((eplField q Rein t N X Y).re + Y * (ux.im - uy.re) / (2 - t)) * cos phi
        - ((eplField q Rein t N X Y).im - X * (ux.im - uy.re) / (2 - t)) * sin phi
        = (eplField q Rein t N X Y).re * cos phi - (eplField q Rein t N X Y).im * sin phi + _
      generalize eplField q Rein t N X Y = F
      generalize ux.im - uy.re = C
      rw [hXe, hYe]
      field_simp
      linear_combination ((y - y0) * C) * csq
    · simp only [derotate, mul_zero, add_zero]
      rw [ecurl]
      change ((eplField q Rein t N X Y).re + Y * (ux.im - uy.re) / (2 - t)) * sin phi
        + ((eplField q Rein t N X Y).im - X * (ux.im - uy.re) / (2 - t)) * cos phi
        = (eplField q Rein t N X Y).re * sin phi + (eplField q Rein t N X Y).im * cos phi - _
      generalize eplField q Rein t N X Y = F
      generalize ux.im - uy.re = C
      rw [hXe, hYe]
      field_simp
      linear_combination (-(x - x0) * C) * csq

/-- For a circular lens the series is exact: the potential has the deflection as gradient and the
convergence as half divergence. -/
theorem C23_epl_circular (x0 y0 phi Rein t : ℝ) (N : ℕ) (cs : Option ℕ)
    (hR : 0 < Rein) (ht0 : 0 < t) (ht : t < 2) (hN : 1 ≤ N) (hcs : ChunkOk N cs) :
    ∃ (α : ℝ → ℝ → ℝ × ℝ) (ψ : ℝ → ℝ → ℝ),
      (∀ x y, eplDeflection x0 y0 1 phi Rein t N cs x y = .ok (α x y)) ∧
      (∀ x y, eplPotential x0 y0 1 phi Rein t N cs x y = .ok (ψ x y)) ∧
      ∀ x y, (x, y) ≠ (x0, y0) → HasGrad ψ (α x y).1 (α x y).2 x y ∧
        HasKappa α (eplConvergence x0 y0 1 phi Rein t 0 x y) x y := by
  obtain ⟨α, ψ, h1, h2, h⟩ := C24_epl_partial x0 y0 1 phi Rein t N cs one_pos le_rfl hR ht0 ht hN hcs
  refine ⟨α, ψ, h1, h2, fun x y hxy => ?_⟩
  obtain ⟨axx, axy, ayx, ayy, hJ, hk, hc, hg⟩ := h x y hxy
  have hz : ((1 - 1 : ℝ) / (1 + 1)) ^ N = 0 := by
    rw [sub_self, zero_div, zero_pow (by omega)]
  rw [hz, mul_zero, mul_zero] at hk hc
  have hk' := abs_eq_zero.mp (le_antisymm hk (abs_nonneg _))
  have hc' := abs_eq_zero.mp (le_antisymm hc (abs_nonneg _))
  have he : ayx = axy := sub_eq_zero.mp hc'
  refine ⟨hg.congr ?_ ?_, axx, axy, ayy, he ▸ hJ, ?_⟩
  · rw [hc']; ring
  · rw [hc']; ring
  · linarith

/-- The core radius enters the convergence but not the deflection, so a cored EPL lens violates the
relation at every position, however many terms are summed.  Circular lens: -/
theorem C24_fails_epl_softened (x0 y0 phi Rein t s x y : ℝ) (N : ℕ) (α : ℝ → ℝ → ℝ × ℝ)
    (hR : 0 < Rein) (ht0 : 0 < t) (ht : t < 2) (hN : 1 ≤ N) (hs : s ≠ 0)
    (hα : ∀ x y, eplDeflection x0 y0 1 phi Rein t N none x y = .ok (α x y))
    (hxy : (x, y) ≠ (x0, y0)) :
    ¬ HasKappa α (eplConvergence x0 y0 1 phi Rein t s x y) x y := by
  intro h
  obtain ⟨α', ψ, h1, -, h2⟩ := C23_epl_circular x0 y0 phi Rein t N none hR ht0 ht hN (Or.inl rfl)
  have e : α' = α := by
    funext x y
    have := h1 x y
    rw [hα x y] at this
    exact (Except.ok.inj this).symm
  rw [e] at h2
  have hu := h.unique (h2 x y hxy).2
  simp only [eplConvergence] at hu
  have hp : 0 < (translateRotate x y x0 y0 (some phi)).1 ^ 2
      + (translateRotate x y x0 y0 (some phi)).2 ^ 2 := by
    have cs' := sin_sq_add_cos_sq phi
    have er : (translateRotate x y x0 y0 (some phi)).1 ^ 2
        + (translateRotate x y x0 y0 (some phi)).2 ^ 2 = (x - x0) ^ 2 + (y - y0) ^ 2 := by
      simp only [translateRotate]
      linear_combination ((x - x0) ^ 2 + (y - y0) ^ 2) * cs'
    rw [er]
    rcases sub_ne_zero_or hxy with h | h
    · have := sq_pos_of_ne_zero h; positivity
    · have := sq_pos_of_ne_zero h; positivity
  generalize (translateRotate x y x0 y0 (some phi)).1 = X at *
  generalize (translateRotate x y x0 y0 (some phi)).2 = Y at *
  have hs2 := sq_pos_of_ne_zero hs
  rw [sqrt_one, mul_one, one_pow, one_mul, zero_pow two_ne_zero, add_zero] at hu
  have hlt : √(X ^ 2 + Y ^ 2) < √(X ^ 2 + Y ^ 2 + s ^ 2) := sqrt_lt_sqrt hp.le (by linarith)
  have hp1 := sqrt_pos.mpr hp
  have : Rein / √(X ^ 2 + Y ^ 2 + s ^ 2) < Rein / √(X ^ 2 + Y ^ 2) :=
    div_lt_div_of_pos_left hR hp1 hlt
  have h3 := rpow_lt_rpow (by positivity) this ht0
  have h4 : 0 < (2 - t) / 2 := by linarith
  have := mul_lt_mul_of_pos_left h3 h4
  linarith

/-- With enough terms the errors are as small as one likes, uniformly on the sky relative to the
convergence. -/
theorem C24_epl_converges_partial (q t ε : ℝ) (hq : 0 < q) (hq1 : q ≤ 1) (ht0 : 0 < t) (ht : t < 2)
    (hε : 0 < ε) :
    ∃ N0 : ℕ, ∀ N, N0 ≤ N → ∀ x0 y0 phi Rein : ℝ, 0 < Rein → ∃ α : ℝ → ℝ → ℝ × ℝ,
      (∀ x y, eplDeflection x0 y0 q phi Rein t N none x y = .ok (α x y)) ∧
      ∀ x y, (x, y) ≠ (x0, y0) → ∃ axx axy ayx ayy, HasJac α axx axy ayx ayy x y ∧
        |(axx + ayy) / 2 - eplConvergence x0 y0 q phi Rein t 0 x y|
          ≤ ε * eplConvergence x0 y0 q phi Rein t 0 x y ∧
        |ayx - axy| ≤ ε * eplConvergence x0 y0 q phi Rein t 0 x y := by
  have hf0 : 0 ≤ (1 - q) / (1 + q) := div_nonneg (by linarith) (by linarith)
  have hf1 : (1 - q) / (1 + q) < 1 := by rw [div_lt_one (by linarith)]; linarith
  have hlim := tendsto_self_mul_const_pow_of_lt_one hf0 hf1
  have h2t : 0 < 2 - t := by linarith
  have hpos : 0 < ε * (2 - t) / 4 := by positivity
  obtain ⟨N0, hN0⟩ := (hlim.eventually_lt_const hpos).exists_forall_of_atTop
  refine ⟨max N0 1, fun N hN x0 y0 phi Rein hR => ?_⟩
  obtain ⟨α, ψ, h1, -, h⟩ := C24_epl_partial x0 y0 q phi Rein t N none hq hq1 hR ht0 ht
    (le_trans (le_max_right _ _) hN) (Or.inl rfl)
  refine ⟨α, h1, fun x y hxy => ?_⟩
  obtain ⟨axx, axy, ayx, ayy, hJ, hk, hc, -⟩ := h x y hxy
  have hs := (hN0 N (le_trans (le_max_left _ _) hN)).le
  have hκ : 0 ≤ eplConvergence x0 y0 q phi Rein t 0 x y := by
    simp only [eplConvergence]
    have := sqrt_nonneg q
    have := hR.le
    positivity
  have hs2 : 4 / (2 - t) * (N * ((1 - q) / (1 + q)) ^ N) ≤ ε := by
    rw [div_mul_eq_mul_div, div_le_iff₀ h2t]
    linarith
  have hs0 : 0 ≤ (N : ℝ) * ((1 - q) / (1 + q)) ^ N := by positivity
  have hs1 : 2 / (2 - t) * (N * ((1 - q) / (1 + q)) ^ N) ≤ ε := by
    refine le_trans ?_ hs2
    refine mul_le_mul_of_nonneg_right ?_ hs0
    exact div_le_div_of_nonneg_right (by norm_num) h2t.le
  refine ⟨axx, axy, ayx, ayy, hJ, hk.trans ?_, hc.trans ?_⟩
  · calc _ = 2 / (2 - t) * (N * ((1 - q) / (1 + q)) ^ N)
          * eplConvergence x0 y0 q phi Rein t 0 x y := by ring
      _ ≤ _ := mul_le_mul_of_nonneg_right hs1 hκ
  · calc _ = 4 / (2 - t) * (N * ((1 - q) / (1 + q)) ^ N)
          * eplConvergence x0 y0 q phi Rein t 0 x y := by ring
      _ ≤ _ := mul_le_mul_of_nonneg_right hs2 hκ

/-- The potential generates the deflection up to the truncation error: its gradient exists and is
within `4 κ N f^N / (2-t)²` times the distance from the centre. -/
theorem C23_epl_partial (x0 y0 q phi Rein t : ℝ) (N : ℕ) (cs : Option ℕ) (hq : 0 < q) (hq1 : q ≤ 1)
    (hR : 0 < Rein) (ht0 : 0 < t) (ht : t < 2) (hN : 1 ≤ N) (hcs : ChunkOk N cs) :
    ∃ (α : ℝ → ℝ → ℝ × ℝ) (ψ : ℝ → ℝ → ℝ),
      (∀ x y, eplDeflection x0 y0 q phi Rein t N cs x y = .ok (α x y)) ∧
      (∀ x y, eplPotential x0 y0 q phi Rein t N cs x y = .ok (ψ x y)) ∧
      ∀ x y, (x, y) ≠ (x0, y0) → ∃ gx gy, HasGrad ψ gx gy x y ∧
        |gx - (α x y).1| ≤ |y - y0| * (4 / (2 - t) ^ 2
          * eplConvergence x0 y0 q phi Rein t 0 x y * (N * ((1 - q) / (1 + q)) ^ N)) ∧
        |gy - (α x y).2| ≤ |x - x0| * (4 / (2 - t) ^ 2
          * eplConvergence x0 y0 q phi Rein t 0 x y * (N * ((1 - q) / (1 + q)) ^ N)) := by
  obtain ⟨α, ψ, h1, h2, h⟩ := C24_epl_partial x0 y0 q phi Rein t N cs hq hq1 hR ht0 ht hN hcs
  refine ⟨α, ψ, h1, h2, fun x y hxy => ?_⟩
  obtain ⟨axx, axy, ayx, ayy, -, -, hc, hg⟩ := h x y hxy
  have h2t : 0 < 2 - t := by linarith
  have key : ∀ d : ℝ, |d * (ayx - axy) / (2 - t)| ≤ |d| * (4 / (2 - t) ^ 2
      * eplConvergence x0 y0 q phi Rein t 0 x y * (N * ((1 - q) / (1 + q)) ^ N)) := by
    intro d
    rw [abs_div, abs_mul, abs_of_pos h2t, mul_div_assoc]
    apply mul_le_mul_of_nonneg_left _ (abs_nonneg d)
    rw [div_le_iff₀ h2t]
    refine hc.trans (le_of_eq ?_)
    field_simp
  refine ⟨_, _, hg, ?_, ?_⟩
  · rw [add_sub_cancel_left]
    exact key _
  · rw [sub_sub_cancel_left, abs_neg]
    exact key _

/-- With enough terms the gradient of the potential is the deflection to any accuracy. -/
theorem C23_epl_converges_partial (x0 y0 q phi Rein t x y ε : ℝ) (hq : 0 < q) (hq1 : q ≤ 1)
    (hR : 0 < Rein) (ht0 : 0 < t) (ht : t < 2) (hε : 0 < ε) (hxy : (x, y) ≠ (x0, y0)) :
    ∃ N0 : ℕ, ∀ N, N0 ≤ N → ∃ (a : ℝ × ℝ) (ψ : ℝ → ℝ → ℝ) (gx gy : ℝ),
      eplDeflection x0 y0 q phi Rein t N none x y = .ok a ∧
      (∀ u v, eplPotential x0 y0 q phi Rein t N none u v = .ok (ψ u v)) ∧
      HasGrad ψ gx gy x y ∧ |gx - a.1| < ε ∧ |gy - a.2| < ε := by
  have hf0 : 0 ≤ (1 - q) / (1 + q) := div_nonneg (by linarith) (by linarith)
  have hf1 : (1 - q) / (1 + q) < 1 := by rw [div_lt_one (by linarith)]; linarith
  have hlim : ∀ d : ℝ, Filter.Tendsto (fun N : ℕ => |d| * (4 / (2 - t) ^ 2
      * eplConvergence x0 y0 q phi Rein t 0 x y * (N * ((1 - q) / (1 + q)) ^ N)))
      Filter.atTop (nhds 0) := by
    intro d
    have := ((tendsto_self_mul_const_pow_of_lt_one hf0 hf1).const_mul
      (4 / (2 - t) ^ 2 * eplConvergence x0 y0 q phi Rein t 0 x y)).const_mul |d|
    simpa using this
  obtain ⟨N1, hN1⟩ := ((hlim (y - y0)).eventually_lt_const hε).exists_forall_of_atTop
  obtain ⟨N2, hN2⟩ := ((hlim (x - x0)).eventually_lt_const hε).exists_forall_of_atTop
  refine ⟨max 1 (max N1 N2), fun N hN => ?_⟩
  obtain ⟨α, ψ, h1, h2, h⟩ := C23_epl_partial x0 y0 q phi Rein t N none hq hq1 hR ht0 ht
    (le_trans (le_max_left _ _) hN) (Or.inl rfl)
  obtain ⟨gx, gy, hg, hx, hy⟩ := h x y hxy
  exact ⟨α x y, ψ, gx, gy, h1 x y, h2, hg,
    hx.trans_lt (hN1 N (le_trans ((le_max_left _ _).trans (le_max_right _ _)) hN)),
    hy.trans_lt (hN2 N (le_trans ((le_max_right _ _).trans (le_max_right _ _)) hN))⟩

/-! ### Limits -/

/-- A circular isothermal EPL is the singular isothermal sphere, whatever the position angle, the
number of terms and the chunk size (among those that work). -/
theorem C27_sis (x0 y0 phi Rein : ℝ) (N : ℕ) (cs : Option ℕ) (hN : 1 ≤ N) (hcs : ChunkOk N cs)
    (x y : ℝ) (_hxy : (x, y) ≠ (x0, y0)) :
    eplDeflection x0 y0 1 phi Rein 1 N cs x y = .ok (sisDeflection x0 y0 Rein 0 x y) := by
  simp only [eplDeflection, eplFrame_eq 1 Rein 1 N hN cs hcs]
  change Except.ok _ = Except.ok _
  congr 1
  have hphi : ∀ X Y, eplPhi 1 X Y = 0 := by intro X Y; simp [eplPhi]
  have hsum : ∀ X Y, eplSum (eplZ 1 X Y) (eplPhi 1 X Y) 1 N = eplZ 1 X Y := by
    intro X Y
    rw [hphi, eplSum, sum_eq_single_of_mem 0 (by simp; omega)]
    · simp [eplCoef]
    · intro n _ hn; simp [zero_pow hn]
  have hfield : ∀ X Y, eplField 1 Rein 1 N X Y = ((Rein / √(X ^ 2 + Y ^ 2) : ℝ) : ℂ) * ⟨X, Y⟩ := by
    intro X Y
    rw [eplField, hsum]
    simp [eplZ]
    norm_num
  simp only [hfield, Complex.re_ofReal_mul, Complex.im_ofReal_mul]
  simp only [translateRotate, derotate, sisDeflection, cos_neg, sin_neg]
  have cs' := sin_sq_add_cos_sq phi
  have er : ((x - x0) * cos phi + (y - y0) * sin phi) ^ 2
      + ((y - y0) * cos phi - (x - x0) * sin phi) ^ 2 = (x - x0) ^ 2 + (y - y0) ^ 2 := by
    linear_combination ((x - x0) ^ 2 + (y - y0) ^ 2) * cs'
  have er' : ((x - x0) * cos phi + (y - y0) * sin phi) ^ 2
      + (-(x - x0) * sin phi + (y - y0) * cos phi) ^ 2 = (x - x0) ^ 2 + (y - y0) ^ 2 := by
    linear_combination ((x - x0) ^ 2 + (y - y0) ^ 2) * cs'
  simp only [er, er', add_zero]
  generalize √((x - x0) ^ 2 + (y - y0) ^ 2) = w
  ext
  · simp only
    linear_combination (Rein * (x - x0) / w) * cs'
  · simp only
    linear_combination (Rein * (y - y0) / w) * cs'

/-- Euler's relation between potential and deflection: the potential is homogeneous of degree
`2 - t`, for every lens and every number of terms. -/
theorem C27_euler (x0 y0 q phi Rein t : ℝ) (N : ℕ) (cs : Option ℕ) (ht : t < 2)
    (x y : ℝ) (a : ℝ × ℝ) (ψ : ℝ) (ha : eplDeflection x0 y0 q phi Rein t N cs x y = .ok a)
    (hψ : eplPotential x0 y0 q phi Rein t N cs x y = .ok ψ) :
    (x - x0) * a.1 + (y - y0) * a.2 = (2 - t) * ψ := by
  have h2 : 2 - t ≠ 0 := by linarith
  simp only [eplPotential, ha] at hψ
  have := Except.ok.inj hψ
  rw [← this]
  simp only [translateRotate, derotate, cos_neg, sin_neg]
  have cs' := sin_sq_add_cos_sq phi
  field_simp
  linear_combination (-((x - x0) * a.1 + (y - y0) * a.2)) * cs'

/-- The two formulas for the convergence of an isothermal ellipsoid agree.  They take the core in
different units: the EPL core is `q` times the SIE core. -/
theorem C27_sie_convergence (x0 y0 q phi Rein s x y : ℝ) :
    eplConvergence x0 y0 q phi Rein 1 (q * s) x y = sieConvergence x0 y0 q phi Rein s x y := by
  simp only [eplConvergence, sieConvergence, rpow_one]
  rw [show ∀ a b : ℝ, q ^ 2 * a ^ 2 + b ^ 2 + (q * s) ^ 2 = q ^ 2 * (a ^ 2 + s ^ 2) + b ^ 2 by
    intros; ring]
  ring

/-! ### Concrete instances -/

/-- A lens with two terms, in one chunk of two. -/
example : eplDeflection 0 0 (1 / 2) 0 1 1 2 (some 2) 3 4 = eplDeflection 0 0 (1 / 2) 0 1 1 2 none 3 4 :=
  (C26_partial 0 0 (1 / 2) 0 1 1 3 4 2 (by norm_num) (some 2)
    (Or.inr (Or.inr ⟨2, rfl, by norm_num, by norm_num⟩))).1

/-- A circular isothermal lens of Einstein radius 5 at `(3, 4)` deflects by `(3, 4)`. -/
example : eplDeflection 0 0 1 0.7 5 1 3 none 3 4 = .ok (3, 4) := by
  rw [C27_sis 0 0 0.7 5 3 none (by norm_num) (Or.inl rfl) 3 4 (by simp)]
  have e : √(25 : ℝ) = 5 := by rw [show (25 : ℝ) = 5 ^ 2 by norm_num]; exact sqrt_sq (by norm_num)
  congr 1
  simp only [sisDeflection, translateRotate]
  norm_num [e]

/-- The error bound for the default number of terms at axis ratio 0.8 is below `10 ^ -15`. -/
example : ((18 : ℕ) : ℝ) * ((1 - 0.8) / (1 + 0.8)) ^ 18 < 1e-15 := by norm_num

/-- The hypotheses of the error bound hold for an ordinary lens. -/
example : ∃ α : ℝ → ℝ → ℝ × ℝ, (∀ x y, eplDeflection 0.1 0.2 0.8 0.3 1 1.2 18 none x y = .ok (α x y)) ∧
    ∃ axx axy ayx ayy, HasJac α axx axy ayx ayy 1 1 ∧ |ayx - axy|
      ≤ 4 / (2 - 1.2) * eplConvergence 0.1 0.2 0.8 0.3 1 1.2 0 1 1
        * ((18 : ℕ) * ((1 - 0.8) / (1 + 0.8)) ^ 18) := by
  obtain ⟨α, ψ, h1, -, h⟩ := C24_epl_partial 0.1 0.2 0.8 0.3 1 1.2 18 none (by norm_num) (by norm_num)
    (by norm_num) (by norm_num) (by norm_num) (by norm_num) (Or.inl rfl)
  obtain ⟨a, b, c, d, hJ, -, hc, -⟩ := h 1 1 (by norm_num)
  exact ⟨α, h1, a, b, c, d, hJ, hc⟩

/-- Enough terms for the gradient at (3, 4) of a steep flattened lens. -/
example : ∃ N0 : ℕ, ∀ N, N0 ≤ N → ∃ (a : ℝ × ℝ) (ψ : ℝ → ℝ → ℝ) (gx gy : ℝ),
    eplDeflection 0 0 (1 / 2) 1 1 (3 / 2) N none 3 4 = .ok a ∧
    (∀ u v, eplPotential 0 0 (1 / 2) 1 1 (3 / 2) N none u v = .ok (ψ u v)) ∧
    HasGrad ψ gx gy 3 4 ∧ |gx - a.1| < 1e-9 ∧ |gy - a.2| < 1e-9 :=
  C23_epl_converges_partial 0 0 (1 / 2) 1 1 (3 / 2) 3 4 1e-9 (by norm_num) (by norm_num)
    (by norm_num) (by norm_num) (by norm_num) (by norm_num) (by norm_num)

end Caustics
