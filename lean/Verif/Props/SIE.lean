import Verif.Lemmas.SIE
import Verif.Props.LensSimple

/-! The singular (or cored) isothermal ellipsoid: potential, deflection and convergence. -/

open Real

namespace Caustics

theorem frame_ne {x0 y0 phi x y : ℝ} (h : (x, y) ≠ (x0, y0)) :
    (translateRotate x y x0 y0 (some phi)).1 ≠ 0 ∨ (translateRotate x y x0 y0 (some phi)).2 ≠ 0 := by
  by_contra hc
  push Not at hc
  simp only [translateRotate] at hc
  have cs := sin_sq_add_cos_sq phi
  have e1 : x - x0 = 0 := by linear_combination (cos phi) * hc.1 - (sin phi) * hc.2 - (x - x0) * cs
  have e2 : y - y0 = 0 := by linear_combination (sin phi) * hc.1 + (cos phi) * hc.2 - (y - y0) * cs
  exact h (Prod.ext (sub_eq_zero.mp e1) (sub_eq_zero.mp e2))

/-- Half the divergence of the deflection is the convergence, for every axis ratio below 1, with or
without a core; a cored lens also at its centre. -/
theorem C24_sie (x0 y0 q phi Rein s : ℝ) (hq : 0 < q) (hq1 : q < 1) (hs : 0 ≤ s) (x y : ℝ)
    (h : s ≠ 0 ∨ (x, y) ≠ (x0, y0)) :
    HasKappa (sieDeflection x0 y0 q phi Rein s) (sieConvergence x0 y0 q phi Rein s x y) x y := by
  have h' : s ≠ 0 ∨ (translateRotate x y x0 y0 (some phi)).1 ≠ 0
      ∨ (translateRotate x y x0 y0 (some phi)).2 ≠ 0 := h.imp id frame_ne
  have hQ : sieQ q = q := if_neg hq1.ne
  have hp := siePsi_pos hq h'
  have hW := sieW_pos hq hq1.le hs h'
  have hps := siePsi_sq (q := q) (s := s) (x := (translateRotate x y x0 y0 (some phi)).1)
    (y := (translateRotate x y x0 y0 (some phi)).2)
  have hk : HasKappa (fun x y => (Rein * √q / √(1 - q ^ 2) * arctan (√(1 - q ^ 2) * x / (siePsi q s x y + s)),
      Rein * √q / √(1 - q ^ 2) * artanh (√(1 - q ^ 2) * y / (siePsi q s x y + q ^ 2 * s))))
      (sieConvergence x0 y0 q phi Rein s x y) (translateRotate x y x0 y0 (some phi)).1
      (translateRotate x y x0 y0 (some phi)).2 := by
    refine ⟨_, _, _, ⟨hasGrad_sieX hq hq1 hs h' (Rein * √q), hasGrad_sieY hq hq1 hs h' (Rein * √q)⟩, ?_⟩
    simp only [sieConvergence]
    change 0.5 * √q * Rein / siePsi q s (translateRotate x y x0 y0 (some phi)).1
      (translateRotate x y x0 y0 (some phi)).2 = _
    generalize (translateRotate x y x0 y0 (some phi)).1 = X at *
    generalize (translateRotate x y x0 y0 (some phi)).2 = Y at *
    have hWe : sieW q s X Y = (siePsi q s X Y + s) ^ 2 + (1 - q ^ 2) * X ^ 2 := rfl
    generalize siePsi q s X Y = P at *
    generalize sieW q s X Y = W at *
    field_simp
    norm_num
    linear_combination Rein * (hWe + hps)
  have := hasKappa_frame hk
  refine this.congr_near (Filter.Eventually.of_forall fun p => ?_)
  simp only [sieDeflection, hQ]
  rfl

/-- The gradient of the potential is the deflection: cores of zero or at least `1e-6`. -/
theorem C23_sie_partial (x0 y0 q phi Rein s : ℝ) (hq : 0 < q) (hq1 : q < 1) (hs : s = 0 ∨ 1e-6 ≤ s)
    (x y : ℝ) (h : s ≠ 0 ∨ (x, y) ≠ (x0, y0)) :
    HasGrad (siePotential x0 y0 q phi Rein s) (sieDeflection x0 y0 q phi Rein s x y).1
      (sieDeflection x0 y0 q phi Rein s x y).2 x y := by
  have hs0 : 0 ≤ s := by rcases hs with h | h <;> linarith
  have h' : s ≠ 0 ∨ (translateRotate x y x0 y0 (some phi)).1 ≠ 0
      ∨ (translateRotate x y x0 y0 (some phi)).2 ≠ 0 := h.imp id frame_ne
  have hQ : sieQ q = q := if_neg hq1.ne
  have hp := siePsi_pos hq h'
  have hW := sieW_pos hq hq1.le hs0 h'
  have hps := siePsi_sq (q := q) (s := s) (x := (translateRotate x y x0 y0 (some phi)).1)
    (y := (translateRotate x y x0 y0 (some phi)).2)
  have hX := HasGrad.fst (translateRotate x y x0 y0 (some phi)).1 (translateRotate x y x0 y0 (some phi)).2
  have hY := HasGrad.snd (translateRotate x y x0 y0 (some phi)).1 (translateRotate x y x0 y0 (some phi)).2
  have g1 := hasGrad_sieX hq hq1 hs0 h' (Rein * √q)
  have g2 := hasGrad_sieY hq hq1 hs0 h' (Rein * √q)
  have gl := (hasGrad_sieLog hq hq1.le hs0 h').const_mul (Rein * √q * s)
  have g := (((hX.mul g1).add (hY.mul g2)).sub gl).add
    (HasGrad.const (Rein * √q * s * log ((1 + q) * max s 1e-6)) (translateRotate x y x0 y0 (some phi)).1
      (translateRotate x y x0 y0 (some phi)).2)
  have hpot : siePotential x0 y0 q phi Rein s = fun x y =>
      (fun X Y => X * (Rein * √q / √(1 - q ^ 2) * arctan (√(1 - q ^ 2) * X / (siePsi q s X Y + s)))
        + Y * (Rein * √q / √(1 - q ^ 2) * artanh (√(1 - q ^ 2) * Y / (siePsi q s X Y + q ^ 2 * s)))
        - Rein * √q * s * log √(sieW q s X Y) + Rein * √q * s * log ((1 + q) * max s 1e-6))
      (translateRotate x y x0 y0 (some phi)).1 (translateRotate x y x0 y0 (some phi)).2 := by
    funext x y
    simp only [siePotential, sieDeflection, hQ]
    have cs := sin_sq_add_cos_sq phi
    simp only [derotate, cos_neg, sin_neg]
    simp only [show ∀ X Y : ℝ, √(q ^ 2 * (X ^ 2 + s ^ 2) + Y ^ 2) = siePsi q s X Y from fun _ _ => rfl]
    have hlog : Rein * √q * s * log √((siePsi q s (translateRotate x y x0 y0 (some phi)).1
        (translateRotate x y x0 y0 (some phi)).2 + max s 1e-6) ^ 2
          + (1 - q ^ 2) * (translateRotate x y x0 y0 (some phi)).1 ^ 2)
        = Rein * √q * s * log √(sieW q s (translateRotate x y x0 y0 (some phi)).1
        (translateRotate x y x0 y0 (some phi)).2) := by
      rcases hs with h | h
      · rw [h]; ring
      · rw [max_eq_left h, sieW]
    rw [hlog]
    generalize Rein * √q / √(1 - q ^ 2) * arctan _ = A
    generalize Rein * √q / √(1 - q ^ 2) * artanh _ = B
    linear_combination ((translateRotate x y x0 y0 (some phi)).1 * A
      + (translateRotate x y x0 y0 (some phi)).2 * B) * cs
  rw [hpot]
  have := hasGrad_frame (g.congr (gx' := Rein * √q / √(1 - q ^ 2) * arctan (√(1 - q ^ 2)
      * (translateRotate x y x0 y0 (some phi)).1 / (siePsi q s (translateRotate x y x0 y0 (some phi)).1
      (translateRotate x y x0 y0 (some phi)).2 + s))) (gy' := Rein * √q / √(1 - q ^ 2) * artanh (√(1 - q ^ 2)
      * (translateRotate x y x0 y0 (some phi)).2 / (siePsi q s (translateRotate x y x0 y0 (some phi)).1
      (translateRotate x y x0 y0 (some phi)).2 + q ^ 2 * s))) ?_ ?_)
  · simp only [sieDeflection, hQ]
    exact this
  · generalize (translateRotate x y x0 y0 (some phi)).1 = X at *
    generalize (translateRotate x y x0 y0 (some phi)).2 = Y at *
    generalize arctan (√(1 - q ^ 2) * X / (siePsi q s X Y + s)) = A
    generalize artanh (√(1 - q ^ 2) * Y / (siePsi q s X Y + q ^ 2 * s)) = B
    have hWe : sieW q s X Y = (siePsi q s X Y + s) ^ 2 + (1 - q ^ 2) * X ^ 2 := rfl
    generalize siePsi q s X Y = P at *
    generalize sieW q s X Y = W at *
    generalize √(1 - q ^ 2) = F
    field_simp
    ring
  · generalize (translateRotate x y x0 y0 (some phi)).1 = X at *
    generalize (translateRotate x y x0 y0 (some phi)).2 = Y at *
    generalize arctan (√(1 - q ^ 2) * X / (siePsi q s X Y + s)) = A
    generalize artanh (√(1 - q ^ 2) * Y / (siePsi q s X Y + q ^ 2 * s)) = B
    have hWe : sieW q s X Y = (siePsi q s X Y + s) ^ 2 + (1 - q ^ 2) * X ^ 2 := rfl
    generalize siePsi q s X Y = P at *
    generalize sieW q s X Y = W at *
    generalize √(1 - q ^ 2) = F
    field_simp
    ring

/-! ### The circular case

At `q = 1` the deflection is that of `q = 1 - 1e-6`, while the convergence and the logarithm of the
potential use `q = 1`. -/

theorem sieDeflection_one (x0 y0 phi Rein s : ℝ) :
    sieDeflection x0 y0 1 phi Rein s = sieDeflection x0 y0 (1 - 1e-6) phi Rein s := by
  have e1 : sieQ 1 = 1 - 1e-6 := if_pos rfl
  have e2 : sieQ (1 - 1e-6) = 1 - 1e-6 := if_neg (by norm_num)
  funext x y
  simp only [sieDeflection, e1, e2]

/-- Without a core the potential of the circular lens still has the deflection as gradient. -/
theorem C23_sie_circular (x0 y0 phi Rein x y : ℝ) (h : (x, y) ≠ (x0, y0)) :
    HasGrad (siePotential x0 y0 1 phi Rein 0) (sieDeflection x0 y0 1 phi Rein 0 x y).1
      (sieDeflection x0 y0 1 phi Rein 0 x y).2 x y := by
  have := C23_sie_partial x0 y0 (1 - 1e-6) phi Rein 0 (by norm_num) (by norm_num) (Or.inl rfl) x y
    (Or.inr h)
  rw [sieDeflection_one]
  have e : siePotential x0 y0 1 phi Rein 0 = siePotential x0 y0 (1 - 1e-6) phi Rein 0 := by
    funext x y
    simp only [siePotential, sieDeflection_one, mul_zero, zero_mul, sub_zero, add_zero]
  rw [e]
  exact this

/-- The convergence of the circular lens is half the divergence of its deflection to one part in a
million. -/
theorem C24_sie_circular_partial (x0 y0 phi Rein s : ℝ) (hs : 0 ≤ s) (hR : 0 ≤ Rein) (x y : ℝ)
    (h : s ≠ 0 ∨ (x, y) ≠ (x0, y0)) :
    ∃ k, HasKappa (sieDeflection x0 y0 1 phi Rein s) k x y ∧
      |k - sieConvergence x0 y0 1 phi Rein s x y| ≤ 1e-6 * sieConvergence x0 y0 1 phi Rein s x y := by
  have hk := C24_sie x0 y0 (1 - 1e-6) phi Rein s (by norm_num) (by norm_num) hs x y h
  rw [← sieDeflection_one] at hk
  refine ⟨_, hk, ?_⟩
  have h' : s ≠ 0 ∨ (translateRotate x y x0 y0 (some phi)).1 ≠ 0
      ∨ (translateRotate x y x0 y0 (some phi)).2 ≠ 0 := h.imp id frame_ne
  simp only [sieConvergence]
  generalize (translateRotate x y x0 y0 (some phi)).1 = X at *
  generalize (translateRotate x y x0 y0 (some phi)).2 = Y at *
  have hq : (0 : ℝ) < 1 - 1e-6 := by norm_num
  have p1 : 0 < siePsi 1 s X Y := siePsi_pos one_pos h'
  have p2 : 0 < siePsi (1 - 1e-6) s X Y := siePsi_pos hq h'
  have s1 := siePsi_sq (q := 1) (s := s) (x := X) (y := Y)
  have s2 := siePsi_sq (q := 1 - 1e-6) (s := s) (x := X) (y := Y)
  change |0.5 * √(1 - 1e-6) * Rein / siePsi (1 - 1e-6) s X Y - 0.5 * √1 * Rein / siePsi 1 s X Y|
    ≤ 1e-6 * (0.5 * √1 * Rein / siePsi 1 s X Y)
  rw [sqrt_one]
  -- `q' ψ ≤ ψ' ≤ ψ`
  have b1 : siePsi (1 - 1e-6) s X Y ≤ siePsi 1 s X Y := by
    apply le_of_sq_le_sq _ p1.le
    rw [s1, s2]
    nlinarith [sq_nonneg X, sq_nonneg s]
  have b2 : (1 - 1e-6) * siePsi 1 s X Y ≤ siePsi (1 - 1e-6) s X Y := by
    apply le_of_sq_le_sq _ p2.le
    rw [mul_pow, s1, s2]
    nlinarith [sq_nonneg Y]
  have r0 := sqrt_nonneg (1 - 1e-6 : ℝ)
  have r2 := sq_sqrt hq.le
  have r1 : 1 - 1e-6 ≤ √(1 - 1e-6 : ℝ) := by
    apply le_sqrt_of_sq_le; norm_num
  have r3 : √(1 - 1e-6 : ℝ) ≤ 1 - 1e-6 / 2 := by
    rw [sqrt_le_left (by norm_num)]; norm_num
  generalize √(1 - 1e-6 : ℝ) = r at *
  generalize siePsi 1 s X Y = P at *
  generalize siePsi (1 - 1e-6) s X Y = Q at *
  have e : 0.5 * r * Rein / Q - 0.5 * 1 * Rein / P = 0.5 * Rein / P * ((r * P - Q) / Q) := by
    field_simp
  have hc : 0 ≤ 0.5 * Rein / P := by positivity
  rw [e, abs_mul, abs_of_nonneg hc, mul_one, mul_comm]
  refine mul_le_mul_of_nonneg_right ?_ hc
  rw [abs_div, abs_of_pos p2, div_le_iff₀ p2, abs_le]
  constructor
  · nlinarith
  · nlinarith

/-- The exact statement fails for the circular lens: unit Einstein radius, at `(1, 0)`. -/
theorem C24_fails_sie_circular :
    ¬ HasKappa (sieDeflection 0 0 1 0 1 0) (sieConvergence 0 0 1 0 1 0 1 0) 1 0 := by
  intro h
  have h2 := C24_sie 0 0 (1 - 1e-6) 0 1 0 (by norm_num) (by norm_num) le_rfl 1 0 (Or.inr (by norm_num))
  rw [sieDeflection_one] at h
  have := h.unique h2
  simp only [sieConvergence, translateRotate] at this
  norm_num at this
  have h1 : √(999998000001 : ℝ) = 999999 := by
    rw [show (999998000001 : ℝ) = 999999 ^ 2 by norm_num]; exact sqrt_sq (by norm_num)
  have h2' : √(1000000000000 : ℝ) = 1000000 := by
    rw [show (1000000000000 : ℝ) = 1000000 ^ 2 by norm_num]; exact sqrt_sq (by norm_num)
  have h3 : √(1000000 : ℝ) = 1000 := by
    rw [show (1000000 : ℝ) = 1000 ^ 2 by norm_num]; exact sqrt_sq (by norm_num)
  rw [h1, h2', h3] at this
  have h4 : √(999999 : ℝ) < 1000 := by rw [sqrt_lt' (by norm_num)]; norm_num
  have h5 : 999 < √(999999 : ℝ) := by rw [lt_sqrt (by norm_num)]; norm_num
  have h6 := sq_sqrt (show (0 : ℝ) ≤ 999999 by norm_num)
  generalize √(999999 : ℝ) = r at *
  field_simp at this
  nlinarith

/-- And with a core the gradient fails too for the circular lens: unit Einstein radius and core, at
`(0, 1)`. -/
theorem C23_fails_sie_circular_core :
    ¬ HasGrad (siePotential 0 0 1 0 1 1) (sieDeflection 0 0 1 0 1 1 0 1).1
      (sieDeflection 0 0 1 0 1 1 0 1).2 0 1 := by
  intro h
  have hq : (0 : ℝ) < 1 - 1e-6 := by norm_num
  have hq1 : (1 - 1e-6 : ℝ) < 1 := by norm_num
  have h' : (1 : ℝ) ≠ 0 ∨ (0 : ℝ) ≠ 0 ∨ (1 : ℝ) ≠ 0 := Or.inl one_ne_zero
  have g1 := hasGrad_sieX (x := 0) (y := 1) hq hq1 zero_le_one h' √(1 - 1e-6)
  have g2 := hasGrad_sieY (x := 0) (y := 1) hq hq1 zero_le_one h' √(1 - 1e-6)
  have gl := hasGrad_sieLog (x := 0) (y := 1) one_pos le_rfl zero_le_one h'
  have g := ((((HasGrad.fst (0 : ℝ) 1).mul g1).add ((HasGrad.snd 0 1).mul g2)).sub gl).add
    (HasGrad.const (log 2) 0 1)
  have hpot : siePotential 0 0 1 0 1 1 = fun x y =>
      x * (√(1 - 1e-6) / √(1 - (1 - 1e-6) ^ 2) * arctan (√(1 - (1 - 1e-6) ^ 2) * x
          / (siePsi (1 - 1e-6) 1 x y + 1)))
        + y * (√(1 - 1e-6) / √(1 - (1 - 1e-6) ^ 2) * artanh (√(1 - (1 - 1e-6) ^ 2) * y
          / (siePsi (1 - 1e-6) 1 x y + (1 - 1e-6) ^ 2 * 1)))
        - log √(sieW 1 1 x y) + log 2 := by
    funext x y
    simp only [siePotential, sieDeflection_one]
    have e2 : sieQ (1 - 1e-6) = 1 - 1e-6 := if_neg (by norm_num)
    simp only [sieDeflection, e2, translateRotate, derotate, cos_zero, sin_zero, neg_zero, mul_zero,
      mul_one, add_zero, sub_zero, zero_add, one_mul, sqrt_one, one_pow, sieW, siePsi]
    rw [max_eq_left (by norm_num : (1e-6 : ℝ) ≤ 1)]
    norm_num
  rw [hpot] at h
  have hu := (h.unique g).2
  have e2 : sieQ (1 - 1e-6) = 1 - 1e-6 := if_neg (by norm_num)
  rw [sieDeflection_one] at hu
  simp only [sieDeflection, e2, translateRotate, derotate, cos_zero, sin_zero, mul_zero,
      mul_one, add_zero, sub_zero, zero_add, one_mul, zero_mul] at hu
  rw [show √((1 - 1e-6 : ℝ) ^ 2 * (0 ^ 2 + 1 ^ 2) + 1 ^ 2) = siePsi (1 - 1e-6) 1 0 1 from rfl] at hu
  have hu2 : √(1 - 1e-6 : ℝ) * (1 + siePsi (1 - 1e-6) 1 0 1)
        / (siePsi (1 - 1e-6) 1 0 1 * sieW (1 - 1e-6) 1 0 1)
      = (1 + siePsi 1 1 0 1) / (siePsi 1 1 0 1 * sieW 1 1 0 1) := by
    have : ((0 : ℝ) ^ 2 + 1 ^ 2) = 1 := by norm_num
    rw [this] at hu
    linear_combination -hu
  have s1 := siePsi_sq (q := 1) (s := 1) (x := 0) (y := 1)
  have s2 := siePsi_sq (q := 1 - 1e-6) (s := 1) (x := 0) (y := 1)
  have p1 : 0 < siePsi 1 1 0 1 := siePsi_pos one_pos h'
  have p2 : 0 < siePsi (1 - 1e-6) 1 0 1 := siePsi_pos hq h'
  have w1 : sieW 1 1 0 1 = (siePsi 1 1 0 1 + 1) ^ 2 := by unfold sieW; ring
  have w2 : sieW (1 - 1e-6) 1 0 1 = (siePsi (1 - 1e-6) 1 0 1 + 1) ^ 2 := by unfold sieW; ring
  rw [w1, w2] at hu2
  have r1 : 1 - 0.51e-6 ≤ √(1 - 1e-6 : ℝ) := by
    apply le_sqrt_of_sq_le; norm_num
  generalize √(1 - 1e-6 : ℝ) = r at *
  have b1 : siePsi (1 - 1e-6) 1 0 1 ≤ siePsi 1 1 0 1 := by
    apply le_of_sq_le_sq _ p1.le
    rw [s1, s2]
    norm_num
  generalize siePsi 1 1 0 1 = P at *
  generalize siePsi (1 - 1e-6) 1 0 1 = Q at *
  have hu3 : r * (P * (P + 1)) = Q * (Q + 1) := by
    field_simp at hu2
    have hne : (1 + P) * (1 + Q) ≠ 0 := by positivity
    apply mul_left_cancel₀ hne
    linear_combination hu2
  have hP : P < 1.4143 := by
    nlinarith
  have hP2 : P ^ 2 = 2 := by rw [s1]; norm_num
  have hQ2 : Q ^ 2 ≤ 2 - 1.99e-6 := by rw [s2]; norm_num
  nlinarith

/-! ### Concrete instances -/

example : HasKappa (sieDeflection 0.1 (-0.2) 0.7 0.4 1.3 0.05) (sieConvergence 0.1 (-0.2) 0.7 0.4 1.3 0.05 0.1 (-0.2))
    0.1 (-0.2) := C24_sie _ _ _ _ _ _ (by norm_num) (by norm_num) (by norm_num) _ _ (Or.inl (by norm_num))

/-- A lens of axis ratio 1/4 and Einstein radius 4 without core has convergence 1 at `(4, 0)`. -/
example : HasKappa (sieDeflection 0 0 (1 / 4) 0 4 0) 1 4 0 := by
  have h := C24_sie 0 0 (1 / 4) 0 4 0 (by norm_num) (by norm_num) le_rfl 4 0 (Or.inr (by norm_num))
  have e : sieConvergence 0 0 (1 / 4) 0 4 0 4 0 = 1 := by
    have e4 : √(4 : ℝ) = 2 := by
      rw [show (4 : ℝ) = 2 ^ 2 by norm_num]; exact sqrt_sq (by norm_num)
    simp only [sieConvergence, translateRotate]
    norm_num [e4]
  rwa [e] at h

end Caustics
