import Verif.Props.EPL
import Verif.Props.SIE
import Verif.Lemmas.ArctanDouble

/-! # The two isothermal ellipsoids: the EPL series at slope 1 and the closed form of the SIE -/

namespace Caustics

open Finset

section

variable {q : ℝ}

theorem eplCoef_one (n : ℕ) : eplCoef 1 n = 1 / (2 * n + 1) := by
  induction n with
  | zero => simp [eplCoef]
  | succ n ih =>
    rw [eplCoef_succ, ih, eplFactor]
    push_cast
    have h1 : (2 * (n : ℝ) + 1) ≠ 0 := by positivity
    have h2 : (2 * ((n : ℝ) + 1) + 1) ≠ 0 := by positivity
    have h3 : (2 * ((n : ℝ) + 1) + (2 - 1)) ≠ 0 := by ring_nf; positivity
    field_simp
    ring

/-- Complex position scaled to the disc. -/
noncomputable def isoW (q X Y : ℝ) : ℂ :=
  (√((1 - q) / (1 + q)) : ℝ) * eplZ q X Y / (√(q ^ 2 * X ^ 2 + Y ^ 2) : ℝ)

theorem isoR_pos (hq : 0 < q) {X Y : ℝ} (h : X ≠ 0 ∨ Y ≠ 0) : 0 < √(q ^ 2 * X ^ 2 + Y ^ 2) := by
  apply Real.sqrt_pos.mpr
  rcases h with h | h
  · have := mul_pos (pow_pos hq 2) (pow_pos (abs_pos.mpr h) 2)
    rw [sq_abs] at this
    nlinarith [sq_nonneg Y]
  · have := pow_pos (abs_pos.mpr h) 2
    rw [sq_abs] at this
    nlinarith [mul_nonneg (sq_nonneg q) (sq_nonneg X)]

theorem norm_isoW (hq : 0 < q) {X Y : ℝ} (h : X ≠ 0 ∨ Y ≠ 0) :
    ‖isoW q X Y‖ = √((1 - q) / (1 + q)) := by
  have hr := isoR_pos hq h
  rw [isoW, norm_div, norm_mul, norm_eplZ, Complex.norm_real, Complex.norm_real,
    Real.norm_of_nonneg hr.le, Real.norm_of_nonneg (Real.sqrt_nonneg _), mul_div_assoc, div_self hr.ne',
    mul_one]

theorem eplSum_iso (hq : 0 < q) (hq1 : q < 1) {X Y : ℝ} (h : X ≠ 0 ∨ Y ≠ 0) (N : ℕ) :
    eplSum (eplZ q X Y) (eplPhi q X Y) 1 N
      = ((√(q ^ 2 * X ^ 2 + Y ^ 2) / √((1 - q) / (1 + q)) : ℝ) : ℂ)
        * ∑ n ∈ range N, (-1) ^ n * isoW q X Y ^ (2 * n + 1) / ((2 * n + 1 : ℕ) : ℂ) := by
  have hr := isoR_pos hq h
  have hf : 0 < (1 - q) / (1 + q) := div_pos (by linarith) (by linarith)
  have hg := Real.sqrt_pos.mpr hf
  have hgg := Real.mul_self_sqrt hf.le
  have hrr : √(q ^ 2 * X ^ 2 + Y ^ 2) * √(q ^ 2 * X ^ 2 + Y ^ 2) = q ^ 2 * X ^ 2 + Y ^ 2 :=
    Real.mul_self_sqrt (by positivity)
  obtain ⟨h1, h2⟩ := eplZ_ne q hq h
  have hzz : eplZ q X Y * eplZb q X Y = ((q ^ 2 * X ^ 2 + Y ^ 2 : ℝ) : ℂ) := by
    apply Complex.ext
    · rw [Complex.ofReal_re]; simp [eplZ, eplZb]; ring
    · rw [Complex.ofReal_im]; simp [eplZ, eplZb]; ring
  rw [eplSum, mul_sum, mul_sum]
  refine sum_congr rfl fun n _ => ?_
  rw [eplCoef_one, eplPhi, isoW]
  rw [← hrr] at hzz
  rw [show (-((1 - q) / (1 + q)) : ℝ) = -(√((1 - q) / (1 + q)) * √((1 - q) / (1 + q))) by rw [hgg]]
  generalize √(q ^ 2 * X ^ 2 + Y ^ 2) = r at *
  generalize √((1 - q) / (1 + q)) = g at *
  have hr' : (r : ℂ) ≠ 0 := by exact_mod_cast hr.ne'
  have hg' : (g : ℂ) ≠ 0 := by exact_mod_cast hg.ne'
  push_cast at hzz ⊢
  have e : eplZ q X Y / eplZb q X Y = eplZ q X Y ^ 2 / (r * r) := by
    rw [← hzz]
    field_simp
  rw [e]
  generalize eplZ q X Y = z at *
  have h3 : (2 * (n : ℂ) + 1) ≠ 0 := by exact_mod_cast Nat.succ_ne_zero (2 * n)
  rw [show z ^ 2 / ((r : ℂ) * r) * -((g : ℂ) * g) = (-1) * (g * z / r) ^ 2 by field_simp, mul_pow,
    ← pow_mul, pow_succ (_ / _) (2 * n)]
  field_simp

theorem iso_root (hq : 0 < q) (hq1 : q < 1) :
    √(1 - q ^ 2) = (1 + q) * √((1 - q) / (1 + q)) := by
  have hgg := Real.mul_self_sqrt (div_pos (sub_pos.mpr hq1) (by linarith : 0 < 1 + q)).le
  rw [Real.sqrt_eq_iff_mul_self_eq (by nlinarith) (by positivity)]
  have : ((1 + q) * √((1 - q) / (1 + q))) * ((1 + q) * √((1 - q) / (1 + q)))
    = (1 + q) ^ 2 * (√((1 - q) / (1 + q)) * √((1 - q) / (1 + q))) := by ring
  rw [this, hgg]
  field_simp
  ring

/-- The closed form. -/
theorem iso_closed (hq : 0 < q) (hq1 : q < 1) {X Y : ℝ} (h : X ≠ 0 ∨ Y ≠ 0) :
    2 * Complex.arctan (isoW q X Y)
      = Real.arctan (√(1 - q ^ 2) * X / √(q ^ 2 * X ^ 2 + Y ^ 2))
        + Real.artanh (√(1 - q ^ 2) * Y / √(q ^ 2 * X ^ 2 + Y ^ 2)) * Complex.I := by
  have hr := isoR_pos hq h
  have hf : 0 < (1 - q) / (1 + q) := div_pos (by linarith) (by linarith)
  have hg := Real.sqrt_pos.mpr hf
  have hgg := Real.mul_self_sqrt hf.le
  have hrr : √(q ^ 2 * X ^ 2 + Y ^ 2) * √(q ^ 2 * X ^ 2 + Y ^ 2) = q ^ 2 * X ^ 2 + Y ^ 2 :=
    Real.mul_self_sqrt (by positivity)
  have hfe : √(1 - q ^ 2) = (1 + q) * √((1 - q) / (1 + q)) := iso_root hq hq1
  have hg1 : √((1 - q) / (1 + q)) < 1 := by
    rw [Real.sqrt_lt' one_pos, one_pow, div_lt_one (by linarith)]
    linarith
  have hH : |√(1 - q ^ 2) * Y / √(q ^ 2 * X ^ 2 + Y ^ 2)| < 1 := by
    rw [abs_div, abs_of_pos hr, div_lt_one hr]
    apply abs_lt_of_sq_lt_sq _ hr.le
    rw [mul_pow, Real.sq_sqrt (by nlinarith), Real.sq_sqrt (by positivity)]
    have hp : 0 < q ^ 2 * X ^ 2 + Y ^ 2 := Real.sqrt_pos.mp hr
    rcases h with h | h
    · have := mul_pos (pow_pos hq 2) (pow_pos (abs_pos.mpr h) 2)
      rw [sq_abs] at this
      nlinarith [mul_nonneg (sq_nonneg q) (sq_nonneg Y)]
    · have := mul_pos (pow_pos hq 2) (pow_pos (abs_pos.mpr h) 2)
      rw [sq_abs] at this
      nlinarith [mul_nonneg (sq_nonneg q) (sq_nonneg X)]
  rw [two_arctan (by rw [norm_isoW hq h]; exact hg1), ← arctan_split _ _ hH]
  congr 1
  have hw : ‖isoW q X Y‖ < 1 := by rw [norm_isoW hq h]; exact hg1
  have hd1 : 1 - isoW q X Y ^ 2 ≠ 0 := by
    intro h0
    have : ‖isoW q X Y ^ 2‖ = 1 := by rw [← sub_eq_zero.mp h0, norm_one]
    rw [norm_pow] at this
    nlinarith [norm_nonneg (isoW q X Y)]
  have hd2 : ∀ T H : ℝ, (1 - T * H * Complex.I : ℂ) ≠ 0 := by
    intro T H h0
    have := congrArg Complex.re h0
    simp at this
  have hd2' := hd2 (√(1 - q ^ 2) * X / √(q ^ 2 * X ^ 2 + Y ^ 2))
    (√(1 - q ^ 2) * Y / √(q ^ 2 * X ^ 2 + Y ^ 2))
  rw [div_eq_div_iff hd1 hd2', hfe]
  have hz : eplZ q X Y = q * X + Y * Complex.I := by apply Complex.ext <;> simp [eplZ]
  rw [isoW, hz]
  have hggC : ((√((1 - q) / (1 + q)) : ℝ) : ℂ) * (√((1 - q) / (1 + q)) : ℝ) * (1 + q) = 1 - q := by
    rw [← Complex.ofReal_mul, hgg]
    have : (1 - q) / (1 + q) * (1 + q) = 1 - q := div_mul_cancel₀ _ (by linarith)
    exact_mod_cast congrArg (fun t : ℝ => (t : ℂ)) this
  have hrrC : ((√(q ^ 2 * X ^ 2 + Y ^ 2) : ℝ) : ℂ) * (√(q ^ 2 * X ^ 2 + Y ^ 2) : ℝ)
      = q ^ 2 * X ^ 2 + Y ^ 2 := by
    rw [← Complex.ofReal_mul, hrr]
    push_cast
    ring
  push_cast
  have hr' : ((√(q ^ 2 * X ^ 2 + Y ^ 2) : ℝ) : ℂ) ≠ 0 := by exact_mod_cast hr.ne'
  generalize ((√(q ^ 2 * X ^ 2 + Y ^ 2) : ℝ) : ℂ) = r at *
  generalize ((√((1 - q) / (1 + q)) : ℝ) : ℂ) = g at *
  field_simp
  linear_combination g * (-2 * (q * X + Y * Complex.I) * (1 + q) * X * Y * Complex.I
      + (X + Y * Complex.I) * (q * X + Y * Complex.I) ^ 2) * hggC
    + g * (2 * (q * X + Y * Complex.I) - (1 + q) * (X + Y * Complex.I)) * hrrC
    + g * ((1 - q) * Y ^ 3 * Complex.I - (1 - q) * X * Y ^ 2) * Complex.I_sq

/-- In the frame of the lens. -/
theorem iso_field (hq : 0 < q) (hq1 : q < 1) {Rein : ℝ} (hR : 0 ≤ Rein) {X Y : ℝ}
    (h : X ≠ 0 ∨ Y ≠ 0) (N : ℕ) :
    ‖eplField q Rein 1 N X Y - ((Rein * √q / √(1 - q ^ 2) : ℝ) : ℂ)
        * (Real.arctan (√(1 - q ^ 2) * X / √(q ^ 2 * X ^ 2 + Y ^ 2))
          + Real.artanh (√(1 - q ^ 2) * Y / √(q ^ 2 * X ^ 2 + Y ^ 2)) * Complex.I)‖
      ≤ Rein / √q * (((1 - q) / (1 + q)) ^ N / (2 * N + 1)) := by
  have hr := isoR_pos hq h
  have hf : 0 < (1 - q) / (1 + q) := div_pos (by linarith) (by linarith)
  have hg := Real.sqrt_pos.mpr hf
  have hgg := Real.mul_self_sqrt hf.le
  have hsq := Real.sqrt_pos.mpr hq
  have hsqq := Real.mul_self_sqrt hq.le
  have hfe : √(1 - q ^ 2) = (1 + q) * √((1 - q) / (1 + q)) := iso_root hq hq1
  have hg1 : √((1 - q) / (1 + q)) < 1 := by
    rw [Real.sqrt_lt' one_pos, one_pow, div_lt_one (by linarith)]
    linarith
  have hw : ‖isoW q X Y‖ < 1 := by rw [norm_isoW hq h]; exact hg1
  have hrem := arctan_remainder hw N
  rw [norm_isoW hq h] at hrem
  rw [← iso_closed hq hq1 h, eplField, eplSum_iso hq hq1 h, Real.rpow_one]
  have e : ((2 / (1 + q) * (Rein * √q / √(q ^ 2 * X ^ 2 + Y ^ 2)) : ℝ) : ℂ)
        * (((√(q ^ 2 * X ^ 2 + Y ^ 2) / √((1 - q) / (1 + q)) : ℝ) : ℂ)
        * ∑ n ∈ range N, (-1) ^ n * isoW q X Y ^ (2 * n + 1) / ((2 * n + 1 : ℕ) : ℂ))
      - ((Rein * √q / √(1 - q ^ 2) : ℝ) : ℂ) * (2 * Complex.arctan (isoW q X Y))
      = ((2 * Rein * √q / ((1 + q) * √((1 - q) / (1 + q))) : ℝ) : ℂ)
        * (∑ n ∈ range N, (-1) ^ n * isoW q X Y ^ (2 * n + 1) / ((2 * n + 1 : ℕ) : ℂ)
          - Complex.arctan (isoW q X Y)) := by
    rw [hfe]
    rw [show 2 * Rein * √q / ((1 + q) * √((1 - q) / (1 + q)))
      = 2 / (1 + q) * (Rein * √q / √(q ^ 2 * X ^ 2 + Y ^ 2))
        * (√(q ^ 2 * X ^ 2 + Y ^ 2) / √((1 - q) / (1 + q))) by field_simp]
    rw [show Rein * √q / ((1 + q) * √((1 - q) / (1 + q)))
      = 2 / (1 + q) * (Rein * √q / √(q ^ 2 * X ^ 2 + Y ^ 2))
        * (√(q ^ 2 * X ^ 2 + Y ^ 2) / √((1 - q) / (1 + q))) / 2 by field_simp]
    push_cast
    ring
  rw [e, norm_mul, Complex.norm_real, Real.norm_of_nonneg (by positivity)]
  refine (mul_le_mul_of_nonneg_left hrem (by positivity)).trans (le_of_eq ?_)
  have h2 : √((1 - q) / (1 + q)) ^ 2 = (1 - q) / (1 + q) := by rw [sq]; exact hgg
  rw [pow_succ, pow_mul, h2]
  have h3 : 1 - (1 - q) / (1 + q) = 2 * q / (1 + q) := by field_simp; ring
  rw [h3]
  generalize ((1 - q) / (1 + q)) ^ N = F at *
  generalize √((1 - q) / (1 + q)) = g at *
  have hN : (2 * (N : ℝ) + 1) ≠ 0 := by positivity
  have hq' : (1 + q) ≠ 0 := by linarith
  field_simp
  rw [sq]
  linear_combination (F * Rein) * hsqq

end

theorem derotate_dist (a b c d phi : ℝ) :
    ((derotate a b (some phi)).1 - (derotate c d (some phi)).1) ^ 2
      + ((derotate a b (some phi)).2 - (derotate c d (some phi)).2) ^ 2
      = (a - c) ^ 2 + (b - d) ^ 2 := by
  simp only [derotate]
  have cs := Real.sin_sq_add_cos_sq phi
  linear_combination ((a - c) ^ 2 + (b - d) ^ 2) * cs

theorem isoFrame_ne {x y x0 y0 : ℝ} (phi : ℝ) (h : (x, y) ≠ (x0, y0)) :
    (translateRotate x y x0 y0 (some phi)).1 ≠ 0 ∨ (translateRotate x y x0 y0 (some phi)).2 ≠ 0 := by
  by_contra h0
  push Not at h0
  have cs := Real.sin_sq_add_cos_sq phi
  simp only [translateRotate] at h0
  obtain ⟨h1, h2⟩ := h0
  apply h
  have e : (x - x0) ^ 2 + (y - y0) ^ 2 = 0 := by
    have e1 := congrArg (· ^ 2) h1
    have e2 := congrArg (· ^ 2) h2
    linear_combination e1 + e2 - ((x - x0) ^ 2 + (y - y0) ^ 2) * cs
  have hx : x - x0 = 0 := by nlinarith [sq_nonneg (x - x0), sq_nonneg (y - y0)]
  have hy : y - y0 = 0 := by nlinarith [sq_nonneg (x - x0), sq_nonneg (y - y0)]
  rw [sub_eq_zero.mp hx, sub_eq_zero.mp hy]

/-- The truncated series of an isothermal EPL is within `Rein/√q · f^n_iter/(2 n_iter + 1)` of the
closed form of the SIE, `f = (1-q)/(1+q)`, at every position, for every orientation and axis ratio. -/
theorem C91_deflection (x0 y0 q phi Rein : ℝ) (N : ℕ) (cs : Option ℕ) (hq : 0 < q) (hq1 : q < 1)
    (hR : 0 ≤ Rein) (hN : 1 ≤ N) (hcs : ChunkOk N cs) (x y : ℝ) (hxy : (x, y) ≠ (x0, y0)) :
    ∃ a, eplDeflection x0 y0 q phi Rein 1 N cs x y = .ok a ∧
      √((a.1 - (sieDeflection x0 y0 q phi Rein 0 x y).1) ^ 2
          + (a.2 - (sieDeflection x0 y0 q phi Rein 0 x y).2) ^ 2)
        ≤ Rein / √q * (((1 - q) / (1 + q)) ^ N / (2 * N + 1)) := by
  have hfield := iso_field hq hq1 hR (isoFrame_ne phi hxy) N
  simp only [eplDeflection, eplFrame_eq q Rein 1 N hN cs hcs]
  refine ⟨_, rfl, ?_⟩
  have hqq : sieQ q = q := if_neg hq1.ne
  simp only [sieDeflection, hqq, add_zero, mul_zero, ne_eq, OfNat.ofNat_ne_zero, not_false_eq_true,
    zero_pow]
  rw [derotate_dist]
  refine le_trans (le_of_eq ?_) hfield
  rw [Complex.norm_def, Complex.normSq_apply]
  congr 1
  simp only [Complex.sub_re, Complex.sub_im, Complex.re_ofReal_mul, Complex.im_ofReal_mul,
    Complex.add_re, Complex.add_im, Complex.ofReal_re, Complex.ofReal_im, Complex.I_re,
    Complex.I_im, mul_zero, mul_one, add_zero, zero_add]
  ring

/-- The potentials. -/
theorem C91_potential (x0 y0 q phi Rein : ℝ) (N : ℕ) (cs : Option ℕ) (hq : 0 < q) (hq1 : q < 1)
    (hR : 0 ≤ Rein) (hN : 1 ≤ N) (hcs : ChunkOk N cs) (x y : ℝ) (hxy : (x, y) ≠ (x0, y0)) :
    ∃ ψ, eplPotential x0 y0 q phi Rein 1 N cs x y = .ok ψ ∧
      |ψ - siePotential x0 y0 q phi Rein 0 x y|
        ≤ √((x - x0) ^ 2 + (y - y0) ^ 2)
          * (Rein / √q * (((1 - q) / (1 + q)) ^ N / (2 * N + 1))) := by
  obtain ⟨a, ha, hb⟩ := C91_deflection x0 y0 q phi Rein N cs hq hq1 hR hN hcs x y hxy
  obtain ⟨ψ, hψ⟩ : ∃ ψ, eplPotential x0 y0 q phi Rein 1 N cs x y = .ok ψ := by
    simp only [eplPotential, ha]
    exact ⟨_, rfl⟩
  refine ⟨ψ, hψ, ?_⟩
  have he := C27_euler x0 y0 q phi Rein 1 N cs (by norm_num) x y a ψ ha hψ
  have hs : siePotential x0 y0 q phi Rein 0 x y
      = (x - x0) * (sieDeflection x0 y0 q phi Rein 0 x y).1
        + (y - y0) * (sieDeflection x0 y0 q phi Rein 0 x y).2 := by
    simp only [siePotential]
    generalize sieDeflection x0 y0 q phi Rein 0 x y = b
    simp only [mul_zero, zero_mul, sub_zero, add_zero, translateRotate, derotate, Real.cos_neg,
      Real.sin_neg]
    have cs' := Real.sin_sq_add_cos_sq phi
    linear_combination ((x - x0) * b.1 + (y - y0) * b.2) * cs'
  rw [hs]
  generalize sieDeflection x0 y0 q phi Rein 0 x y = b at *
  have e : ψ - ((x - x0) * b.1 + (y - y0) * b.2)
      = (x - x0) * (a.1 - b.1) + (y - y0) * (a.2 - b.2) := by linear_combination -he
  rw [e]
  refine le_trans ?_ (mul_le_mul_of_nonneg_left hb (Real.sqrt_nonneg _))
  rw [← Real.sqrt_mul (by positivity)]
  apply Real.abs_le_sqrt
  nlinarith [sq_nonneg ((x - x0) * (a.2 - b.2) - (y - y0) * (a.1 - b.1))]

/-- With more and more terms the EPL deflection tends to the SIE deflection, uniformly on the sky. -/
theorem C91_limit (q Rein ε : ℝ) (hq : 0 < q) (hq1 : q < 1) (hR : 0 ≤ Rein) (hε : 0 < ε) :
    ∃ N0 : ℕ, ∀ N, N0 ≤ N → ∀ x0 y0 phi x y : ℝ, (x, y) ≠ (x0, y0) →
      ∃ a, eplDeflection x0 y0 q phi Rein 1 N none x y = .ok a ∧
        |a.1 - (sieDeflection x0 y0 q phi Rein 0 x y).1| < ε ∧
        |a.2 - (sieDeflection x0 y0 q phi Rein 0 x y).2| < ε := by
  have hf0 : 0 ≤ (1 - q) / (1 + q) := div_nonneg (by linarith) (by linarith)
  have hf1 : (1 - q) / (1 + q) < 1 := by rw [div_lt_one (by linarith)]; linarith
  have hlim := (tendsto_pow_atTop_nhds_zero_of_lt_one hf0 hf1).const_mul (Rein / √q)
  rw [mul_zero] at hlim
  obtain ⟨N0, hN0⟩ := (hlim.eventually_lt_const hε).exists_forall_of_atTop
  refine ⟨max N0 1, fun N hN x0 y0 phi x y hxy => ?_⟩
  obtain ⟨a, ha, hb⟩ := C91_deflection x0 y0 q phi Rein N none hq hq1 hR
    (le_trans (le_max_right _ _) hN) (Or.inl rfl) x y hxy
  have h1 := hN0 N (le_trans (le_max_left _ _) hN)
  have h2 : Rein / √q * (((1 - q) / (1 + q)) ^ N / (2 * N + 1))
      ≤ Rein / √q * ((1 - q) / (1 + q)) ^ N := by
    apply mul_le_mul_of_nonneg_left _ (by positivity)
    apply div_le_self (by positivity)
    linarith [(Nat.cast_nonneg N : (0 : ℝ) ≤ N)]
  have h3 := lt_of_le_of_lt (hb.trans h2) h1
  refine ⟨a, ha, lt_of_le_of_lt (Real.abs_le_sqrt ?_) h3, lt_of_le_of_lt (Real.abs_le_sqrt ?_) h3⟩
  · nlinarith [sq_nonneg (a.2 - (sieDeflection x0 y0 q phi Rein 0 x y).2)]
  · nlinarith [sq_nonneg (a.1 - (sieDeflection x0 y0 q phi Rein 0 x y).1)]

/-! ### Concrete instances -/

/-- The default of 18 terms at axis ratio 1/2: agreement to nine digits. -/
example (phi x y : ℝ) (hxy : (x, y) ≠ (0, 0)) :
    ∃ a, eplDeflection 0 0 (1 / 2) phi 1 1 18 none x y = .ok a ∧
      |a.1 - (sieDeflection 0 0 (1 / 2) phi 1 0 x y).1| ≤ 2e-10 := by
  obtain ⟨a, ha, hb⟩ := C91_deflection 0 0 (1 / 2) phi 1 18 none (by norm_num) (by norm_num)
    (by norm_num) (by norm_num) (Or.inl rfl) x y hxy
  refine ⟨a, ha, (Real.abs_le_sqrt ?_).trans (hb.trans ?_)⟩
  · nlinarith [sq_nonneg (a.2 - (sieDeflection 0 0 (1 / 2) phi 1 0 x y).2)]
  · have : (1 / 2 : ℝ) ≤ √(1 / 2) := by
      apply Real.le_sqrt_of_sq_le
      norm_num
    have h2 : 1 / √(1 / 2) ≤ (2 : ℝ) := by
      rw [div_le_iff₀ (by linarith)]
      linarith
    refine (mul_le_mul_of_nonneg_right h2 (by positivity)).trans ?_
    norm_num

/-- The closed form the series is compared with does deflect. -/
example : 0 < (sieDeflection 0 0 (1 / 2) 0 1 0 3 0).1 := by
  have hqq : sieQ (1 / 2) = 1 / 2 := if_neg (by norm_num)
  simp only [sieDeflection, hqq, translateRotate, derotate, Real.cos_zero, Real.sin_zero, mul_zero,
    sub_zero, mul_one, add_zero]
  have h0 : (0 : ℝ) < 1 - (1 / 2) ^ 2 := by norm_num
  have h1 : 0 < √(1 - (1 / 2 : ℝ) ^ 2) := Real.sqrt_pos.mpr h0
  apply mul_pos (by positivity)
  apply Real.arctan_pos.mpr
  positivity

end Caustics
