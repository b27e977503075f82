import Verif.Lemmas.EPL
import Verif.Lemmas.Polar
import Mathlib.Analysis.SpecialFunctions.Pow.Deriv

/-! Derivatives of the truncated EPL series. -/

open Finset Complex

namespace Caustics

/-- `u` is differentiable, `D` is `∂x u - i ∂y u` and `E` is `x ∂x u + y ∂y u`. -/
def HasDE (u : ℝ → ℝ → ℂ) (D E : ℂ) (x y : ℝ) : Prop :=
  ∃ ux uy, HasGrad u ux uy x y ∧ ux - I * uy = D ∧ x * ux + y * uy = E

namespace HasDE

variable {u v : ℝ → ℝ → ℂ} {D E D' E' : ℂ} {x y : ℝ}

theorem congr (h : HasDE u D E x y) (hD : D = D') (hE : E = E') : HasDE u D' E' x y :=
  hD ▸ hE ▸ h

theorem mul (hu : HasDE u D E x y) (hv : HasDE v D' E' x y) :
    HasDE (fun x y => u x y * v x y) (D * v x y + u x y * D') (E * v x y + u x y * E') x y := by
  obtain ⟨ux, uy, h, rfl, rfl⟩ := hu
  obtain ⟨vx, vy, h', rfl, rfl⟩ := hv
  exact ⟨_, _, h.mul h', by ring, by ring⟩

theorem const (c : ℂ) : HasDE (fun _ _ => c) 0 0 x y :=
  ⟨0, 0, HasGrad.const c x y, by simp, by simp⟩

theorem const_mul (c : ℂ) (hu : HasDE u D E x y) :
    HasDE (fun x y => c * u x y) (c * D) (c * E) x y :=
  ((const c).mul hu).congr (by ring) (by ring)

theorem sum {ι : Type*} (s : Finset ι) {u : ι → ℝ → ℝ → ℂ} {D E : ι → ℂ}
    (h : ∀ i ∈ s, HasDE (u i) (D i) (E i) x y) :
    HasDE (fun x y => ∑ i ∈ s, u i x y) (∑ i ∈ s, D i) (∑ i ∈ s, E i) x y := by
  classical
  induction s using Finset.induction_on with
  | empty => simpa using const (x := x) (y := y) 0
  | insert a s ha ih =>
    simp only [sum_insert ha]
    obtain ⟨ux, uy, h1, h2, h3⟩ := h a (mem_insert_self _ _)
    obtain ⟨vx, vy, k1, k2, k3⟩ := ih fun i hi => h i (mem_insert_of_mem hi)
    exact ⟨_, _, h1.add k1, by rw [← h2, ← k2]; ring, by rw [← h3, ← k3]; ring⟩

theorem pow (hu : HasDE u D E x y) (n : ℕ) :
    HasDE (fun x y => u x y ^ n) (n * u x y ^ (n - 1) * D) (n * u x y ^ (n - 1) * E) x y := by
  induction n with
  | zero => simpa using const (x := x) (y := y) 1
  | succ n ih =>
    have := ih.mul hu
    simp only [← pow_succ] at this
    refine this.congr ?_ ?_ <;>
    · rcases n with _ | n
      · simp
      · simp only [Nat.add_sub_cancel]; push_cast; ring

theorem congr_near (h : HasDE u D E x y)
    (e : ∀ᶠ p : ℝ × ℝ in nhds (x, y), v p.1 p.2 = u p.1 p.2) : HasDE v D E x y := by
  obtain ⟨ux, uy, h1, h2, h3⟩ := h
  exact ⟨ux, uy, h1.congr_near e, h2, h3⟩

end HasDE

section epl

variable (q : ℝ) {x y : ℝ}

/-- The complex coordinate `q x + i y` and its conjugate. -/
noncomputable def eplZ (x y : ℝ) : ℂ := ⟨q * x, y⟩
noncomputable def eplZb (x y : ℝ) : ℂ := ⟨q * x, -y⟩

theorem conj_eplZ (x y : ℝ) : (starRingEnd ℂ) (eplZ q x y) = eplZb q x y := by
  apply Complex.ext <;> simp [eplZ, eplZb]

theorem hasDE_z : HasDE (eplZ q) (1 + q) (eplZ q x y) x y := by
  have h := ((HasGrad.fst x y).clm ofRealCLM).const_mul (q : ℂ) |>.add
    (((HasGrad.snd x y).clm ofRealCLM).const_mul I)
  have e : eplZ q = fun x y => (q : ℂ) * ofRealCLM x + I * ofRealCLM y := by
    funext x y
    apply Complex.ext <;> simp [eplZ]
  have e2 : eplZ q x y = q * x + I * y := by
    apply Complex.ext <;> simp [eplZ]
  rw [e2, e]
  refine ⟨_, _, h, ?_, ?_⟩
  · simp only [ofRealCLM_apply, ofReal_one, ofReal_zero]
    linear_combination -I_mul_I
  · simp only [ofRealCLM_apply, ofReal_one, ofReal_zero]
    ring

theorem hasDE_zb : HasDE (eplZb q) (q - 1) (eplZb q x y) x y := by
  have h := ((HasGrad.fst x y).clm ofRealCLM).const_mul (q : ℂ) |>.sub
    (((HasGrad.snd x y).clm ofRealCLM).const_mul I)
  have e : eplZb q = fun x y => (q : ℂ) * ofRealCLM x - I * ofRealCLM y := by
    funext x y
    apply Complex.ext <;> simp [eplZb]
  have e2 : eplZb q x y = q * x - I * y := by
    apply Complex.ext <;> simp [eplZb]
  rw [e2, e]
  refine ⟨_, _, h, ?_, ?_⟩
  · simp only [ofRealCLM_apply, ofReal_one, ofReal_zero]
    linear_combination I_mul_I
  · simp only [ofRealCLM_apply, ofReal_one, ofReal_zero]
    ring

theorem eplZ_ne (hq : 0 < q) (h : x ≠ 0 ∨ y ≠ 0) : eplZ q x y ≠ 0 ∧ eplZb q x y ≠ 0 := by
  constructor
  all_goals
    intro h0
    have h1 := congrArg Complex.re h0
    have h2 := congrArg Complex.im h0
    simp [eplZ, eplZb, hq.ne'] at h1 h2
    rcases h with h | h <;> contradiction

theorem HasDE.inv {u : ℝ → ℝ → ℂ} {D E : ℂ} (hu : HasDE u D E x y) (h0 : u x y ≠ 0) :
    HasDE (fun x y => (u x y)⁻¹) (-D / u x y ^ 2) (-E / u x y ^ 2) x y := by
  obtain ⟨ux, uy, h, rfl, rfl⟩ := hu
  have := h.ccomp (hasDerivAt_inv h0)
  exact ⟨_, _, this, by ring, by ring⟩

/-- The ratio whose powers make up the series. -/
noncomputable def eplPhi (x y : ℝ) : ℂ :=
  eplZ q x y / eplZb q x y * (-((1 - q) / (1 + q)) : ℝ)

theorem hasDE_phi (hq : 0 < q) (h : x ≠ 0 ∨ y ≠ 0) :
    HasDE (eplPhi q) ((1 + q) * (1 - eplPhi q x y) * eplPhi q x y / eplZ q x y) 0 x y := by
  obtain ⟨h1, h2⟩ := eplZ_ne q hq h
  have hq1 : (1 + q : ℂ) ≠ 0 := by
    intro h0
    have := congrArg Complex.re h0
    simp at this
    linarith
  have := (((hasDE_z q (x := x) (y := y)).mul ((hasDE_zb q).inv h2))).mul
    (HasDE.const ((-((1 - q) / (1 + q)) : ℝ) : ℂ))
  have e : eplPhi q = fun x y => eplZ q x y * (eplZb q x y)⁻¹ * ((-((1 - q) / (1 + q)) : ℝ) : ℂ) := by
    funext x y
    rw [eplPhi, div_eq_mul_inv]
  rw [e]
  refine this.congr ?_ ?_
  · push_cast
    field_simp
    ring
  · push_cast
    field_simp
    ring

/-- The elliptical radius. -/
theorem norm_eplZ (x y : ℝ) : ‖eplZ q x y‖ = Real.sqrt (q ^ 2 * x ^ 2 + y ^ 2) := by
  rw [eplZ, Complex.norm_def, Complex.normSq_mk]
  congr 1
  ring

theorem hasGrad_ellrad (hq : 0 < q) (h : x ≠ 0 ∨ y ≠ 0) :
    HasGrad (fun x y => Real.sqrt (q ^ 2 * x ^ 2 + y ^ 2))
      (q ^ 2 * x / Real.sqrt (q ^ 2 * x ^ 2 + y ^ 2)) (y / Real.sqrt (q ^ 2 * x ^ 2 + y ^ 2)) x y := by
  have h' : q * x ≠ 0 ∨ y ≠ 0 := by
    rcases h with h | h
    · exact Or.inl (mul_ne_zero hq.ne' h)
    · exact Or.inr h
  have hX := (HasGrad.fst x y).const_mul q
  have hY := HasGrad.snd x y
  have := HasGrad.subst (X := fun x _ => q * x) (Y := fun _ y => y) (hasGrad_radius h') hX hY
  have e : (fun x y : ℝ => Real.sqrt (q ^ 2 * x ^ 2 + y ^ 2))
      = fun x y => Real.sqrt ((q * x) ^ 2 + y ^ 2) := by
    funext x y; rw [mul_pow]
  rw [e]
  refine this.congr ?_ ?_ <;> · simp only [smul_eq_mul, mul_pow]; ring

theorem hasDE_power (hq : 0 < q) (h : x ≠ 0 ∨ y ≠ 0) {b : ℝ} (hb : 0 < b) (t : ℝ) :
    HasDE (fun x y => (((b / Real.sqrt (q ^ 2 * x ^ 2 + y ^ 2)) ^ t : ℝ) : ℂ))
      (-(t / 2) * (1 + q) * (((b / Real.sqrt (q ^ 2 * x ^ 2 + y ^ 2)) ^ t : ℝ) : ℂ)
        * (1 + eplPhi q x y) / eplZ q x y)
      (-t * (((b / Real.sqrt (q ^ 2 * x ^ 2 + y ^ 2)) ^ t : ℝ) : ℂ)) x y := by
  obtain ⟨h1, h2⟩ := eplZ_ne q hq h
  have hpos : 0 < q ^ 2 * x ^ 2 + y ^ 2 := by
    rcases h with h | h
    · have := sq_pos_of_ne_zero h; positivity
    · have := sq_pos_of_ne_zero h; positivity
  have hr : 0 < Real.sqrt (q ^ 2 * x ^ 2 + y ^ 2) := Real.sqrt_pos.mpr hpos
  have hr2 : Real.sqrt (q ^ 2 * x ^ 2 + y ^ 2) ^ 2 = q ^ 2 * x ^ 2 + y ^ 2 := Real.sq_sqrt hpos.le
  have hd : HasDerivAt (fun r : ℝ => (b / r) ^ t)
      (-t * (b / Real.sqrt (q ^ 2 * x ^ 2 + y ^ 2)) ^ t / Real.sqrt (q ^ 2 * x ^ 2 + y ^ 2))
      (Real.sqrt (q ^ 2 * x ^ 2 + y ^ 2)) := by
    generalize Real.sqrt (q ^ 2 * x ^ 2 + y ^ 2) = r at *
    have hbr : 0 < b / r := by positivity
    have h3 : HasDerivAt (fun r : ℝ => b / r) (-b / r ^ 2) r := by
      refine ((hasDerivAt_const r b).div (hasDerivAt_id r) hr.ne').congr_deriv ?_
      simp
    refine (h3.rpow_const (p := t) (Or.inl hbr.ne')).congr_deriv ?_
    rw [Real.rpow_sub_one hbr.ne']
    field_simp
  have hg := ((hasGrad_ellrad q hq h).comp hd).clm ofRealCLM
  refine ⟨_, _, hg, ?_, ?_⟩
  · simp only [ofRealCLM_apply]
    have hzz : eplZ q x y * eplZb q x y = ((Real.sqrt (q ^ 2 * x ^ 2 + y ^ 2) : ℝ) : ℂ) ^ 2 := by
      rw [← ofReal_pow, hr2]
      apply Complex.ext
      · rw [ofReal_re]; simp [eplZ, eplZb]; ring
      · rw [ofReal_im]; simp [eplZ, eplZb]; ring
    have hnum : (1 + q) * (1 + eplPhi q x y) * eplZb q x y
        = 2 * ((q : ℂ) ^ 2 * x - I * y) := by
      have hq1 : (1 + q : ℂ) ≠ 0 := by
        intro h0
        have := congrArg Complex.re h0
        simp at this
        linarith
      rw [eplPhi]
      push_cast
      have e : (1 + (q : ℂ)) * (1 + eplZ q x y / eplZb q x y * (-((1 - q) / (1 + q))))
          * eplZb q x y = (1 + q) * eplZb q x y - (1 - q) * eplZ q x y := by
        field_simp
        ring
      rw [e]
      apply Complex.ext <;> simp [eplZ, eplZb, pow_two] <;> ring
    generalize ((b / Real.sqrt (q ^ 2 * x ^ 2 + y ^ 2)) ^ t) = P
    generalize Real.sqrt (q ^ 2 * x ^ 2 + y ^ 2) = r at *
    have hrc : (r : ℂ) ≠ 0 := by exact_mod_cast hr.ne'
    push_cast
    have : (1 + eplPhi q x y) / eplZ q x y * (1 + q) = 2 * ((q : ℂ) ^ 2 * x - I * y) / r ^ 2 := by
      rw [← hzz, ← hnum]
      field_simp
    calc _ = -(t / 2) * (P : ℂ) * (2 * ((q : ℂ) ^ 2 * x - I * y) / r ^ 2) := by
          field_simp
          ring
      _ = _ := by rw [← this]; ring
  · simp only [ofRealCLM_apply]
    have hrc2 : ((Real.sqrt (q ^ 2 * x ^ 2 + y ^ 2) : ℝ) : ℂ) ^ 2 = q ^ 2 * x ^ 2 + y ^ 2 := by
      rw [← ofReal_pow, hr2]; push_cast; ring
    generalize ((b / Real.sqrt (q ^ 2 * x ^ 2 + y ^ 2)) ^ t) = P
    generalize Real.sqrt (q ^ 2 * x ^ 2 + y ^ 2) = r at *
    have hrc : (r : ℂ) ≠ 0 := by exact_mod_cast hr.ne'
    push_cast
    field_simp
    rw [hrc2]
    ring

/-- Everything about the truncated series: `div + i curl` and the Euler relation. -/
theorem hasDE_series (hq : 0 < q) (h : x ≠ 0 ∨ y ≠ 0) {b : ℝ} (hb : 0 < b) {t : ℝ} (ht : t < 2)
    (N : ℕ) (hN : 1 ≤ N) :
    let P : ℂ := (((b / Real.sqrt (q ^ 2 * x ^ 2 + y ^ 2)) ^ t : ℝ) : ℂ)
    HasDE (fun x y => ((2 / (1 + q) * (b / Real.sqrt (q ^ 2 * x ^ 2 + y ^ 2)) ^ t : ℝ) : ℂ)
        * eplSum (eplZ q x y) (eplPhi q x y) t N)
      (2 * P * ((1 - t / 2) - eplCoef t (N - 1) * ((N - 1 : ℕ) + t / 2) * eplPhi q x y ^ N))
      ((1 - t) * (((2 / (1 + q) * (b / Real.sqrt (q ^ 2 * x ^ 2 + y ^ 2)) ^ t : ℝ) : ℂ)
        * eplSum (eplZ q x y) (eplPhi q x y) t N)) x y := by
  intro P
  obtain ⟨h1, h2⟩ := eplZ_ne q hq h
  have hq1 : (1 + q : ℂ) ≠ 0 := by
    intro h0
    have := congrArg Complex.re h0
    simp at this
    linarith
  have hs : HasDE (fun x y => ∑ n ∈ range N, (eplCoef t n : ℂ) * eplPhi q x y ^ n) _ _ x y :=
    HasDE.sum (range N) fun n _ => ((hasDE_phi q hq h).pow n).const_mul (eplCoef t n : ℂ)
  have hd := ((hasDE_power q hq h hb t).const_mul (2 / (1 + q) : ℂ)).mul ((hasDE_z q).mul hs)
  have e : (fun x y => ((2 / (1 + q) * (b / Real.sqrt (q ^ 2 * x ^ 2 + y ^ 2)) ^ t : ℝ) : ℂ)
        * eplSum (eplZ q x y) (eplPhi q x y) t N)
      = fun x y => (2 / (1 + q) : ℂ) * (((b / Real.sqrt (q ^ 2 * x ^ 2 + y ^ 2)) ^ t : ℝ) : ℂ)
        * (eplZ q x y * ∑ n ∈ range N, (eplCoef t n : ℂ) * eplPhi q x y ^ n) := by
    funext x y
    push_cast
    rfl
  rw [e]
  refine hd.congr ?_ ?_
  · change 2 / (1 + q) * (-(t / 2) * (1 + q) * P * (1 + eplPhi q x y) / eplZ q x y) * _
      + 2 / (1 + q) * P * _ = _
    have tele : ∀ N, 1 ≤ N → -(t / 2) * (1 + eplPhi q x y)
          * ∑ n ∈ range N, (eplCoef t n : ℂ) * eplPhi q x y ^ n
        + ∑ n ∈ range N, (eplCoef t n : ℂ) * eplPhi q x y ^ n
        + (1 - eplPhi q x y) * ∑ n ∈ range N, (eplCoef t n : ℂ) * (n * eplPhi q x y ^ n)
        = (1 - t / 2) - eplCoef t (N - 1) * ((N - 1 : ℕ) + t / 2) * eplPhi q x y ^ N := by
      intro N hN
      induction N, hN using Nat.le_induction with
      | base => simp [eplCoef]; ring
      | succ N hN ih =>
        rw [sum_range_succ, sum_range_succ]
        have hc : (eplCoef t N : ℂ) * (N + 1 - t / 2)
            = eplCoef t (N - 1) * ((N - 1 : ℕ) + t / 2) := by
          obtain ⟨m, rfl⟩ : ∃ m, N = m + 1 := ⟨N - 1, by omega⟩
          rw [eplCoef_succ, Nat.add_sub_cancel]
          have hden : (2 * ((m + 1 : ℕ) : ℝ) + (2 - t)) ≠ 0 := by
            have : (0 : ℝ) ≤ ((m + 1 : ℕ) : ℝ) := Nat.cast_nonneg _
            linarith
          have : eplCoef t m * eplFactor t (m + 1) * (((m + 1 : ℕ) : ℝ) + 1 - t / 2)
              = eplCoef t m * (m + t / 2) := by
            rw [eplFactor]
            field_simp
            push_cast
            ring
          have h3 := congrArg (fun r : ℝ => (r : ℂ)) this
          push_cast at h3 ⊢
          exact h3
        rw [Nat.add_sub_cancel]
        linear_combination ih + eplPhi q x y ^ N * hc
    have t1 := tele N hN
    have hsum : ∑ n ∈ range N, (eplCoef t n : ℂ) * (n * eplPhi q x y ^ (n - 1)
          * ((1 + q) * (1 - eplPhi q x y) * eplPhi q x y / eplZ q x y))
        = (1 + q) * (1 - eplPhi q x y) / eplZ q x y
          * ∑ n ∈ range N, (eplCoef t n : ℂ) * (n * eplPhi q x y ^ n) := by
      rw [mul_sum]
      refine sum_congr rfl fun n _ => ?_
      rcases n with _ | n
      · simp
      · rw [Nat.add_sub_cancel, pow_succ]; ring
    rw [hsum, ← t1]
    field_simp
    ring
  · change 2 / (1 + q) * (-t * P) * _ + 2 / (1 + q) * P * _ = _
    simp only [mul_zero, sum_const_zero]
    simp only [eplSum, P]
    push_cast
    ring

end epl

end Caustics
