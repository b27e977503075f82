import Verif.Lemmas.Lens
import Verif.Lemmas.RingBounds
import Verif.Model.Lenses

/-! The SIE in its own frame: derivatives of the two deflection components and of the logarithm in
the potential. -/

open Real

namespace Caustics

theorem HasGrad.div {u v : ℝ → ℝ → ℝ} {ux uy vx vy x y : ℝ} (hu : HasGrad u ux uy x y)
    (hv : HasGrad v vx vy x y) (h0 : v x y ≠ 0) :
    HasGrad (fun x y => u x y / v x y) ((ux * v x y - u x y * vx) / v x y ^ 2)
      ((uy * v x y - u x y * vy) / v x y ^ 2) x y := by
  have := hu.mul (hv.comp (hasDerivAt_inv h0))
  simp only [div_eq_mul_inv (u _ _)]
  refine this.congr ?_ ?_ <;> field_simp <;> ring

/-- lenses/func/sie.py:77. -/
noncomputable def siePsi (q s x y : ℝ) : ℝ := √(q ^ 2 * (x ^ 2 + s ^ 2) + y ^ 2)

/-- The common denominator of the derivatives. -/
noncomputable def sieW (q s x y : ℝ) : ℝ := (siePsi q s x y + s) ^ 2 + (1 - q ^ 2) * x ^ 2

section

variable {q s x y : ℝ}

theorem siePsi_sq : siePsi q s x y ^ 2 = q ^ 2 * (x ^ 2 + s ^ 2) + y ^ 2 := sq_sqrt (by positivity)

theorem siePsi_pos (hq : 0 < q) (h : s ≠ 0 ∨ x ≠ 0 ∨ y ≠ 0) : 0 < siePsi q s x y := by
  rw [siePsi, sqrt_pos]
  rcases h with h | h | h
  all_goals
    have := sq_pos_of_ne_zero h
    positivity

theorem sieW_pos (hq : 0 < q) (hq1 : q ≤ 1) (hs : 0 ≤ s) (h : s ≠ 0 ∨ x ≠ 0 ∨ y ≠ 0) :
    0 < sieW q s x y := by
  have := siePsi_pos hq h
  have : 0 ≤ 1 - q ^ 2 := by nlinarith
  unfold sieW
  positivity

theorem sieW_eq' (q s x y : ℝ) : (siePsi q s x y + q ^ 2 * s) ^ 2 - (1 - q ^ 2) * y ^ 2 = q ^ 2 * sieW q s x y := by
  have h := siePsi_sq (q := q) (s := s) (x := x) (y := y)
  unfold sieW
  linear_combination (1 - q ^ 2) * h

theorem hasGrad_siePsi (hq : 0 < q) (h : s ≠ 0 ∨ x ≠ 0 ∨ y ≠ 0) :
    HasGrad (siePsi q s) (q ^ 2 * x / siePsi q s x y) (y / siePsi q s x y) x y := by
  have hp := siePsi_pos hq h
  have hx := HasGrad.fst x y
  have hy := HasGrad.snd x y
  have hin := (((hx.mul hx).add (HasGrad.const (s ^ 2) x y)).const_mul (q ^ 2)).add (hy.mul hy)
  have e : (fun x y : ℝ => q ^ 2 * (x * x + s ^ 2) + y * y)
      = fun x y => q ^ 2 * (x ^ 2 + s ^ 2) + y ^ 2 := by funext x y; ring
  rw [e] at hin
  have h0 : q ^ 2 * (x ^ 2 + s ^ 2) + y ^ 2 ≠ 0 := by
    rw [← siePsi_sq]; positivity
  have := hin.comp (f := fun t => √t) (hasDerivAt_sqrt h0)
  change HasGrad (siePsi q s) _ _ x y at this
  change HasGrad (siePsi q s) _ _ x y
  refine this.congr ?_ ?_
  all_goals
    rw [show √(q ^ 2 * (x ^ 2 + s ^ 2) + y ^ 2) = siePsi q s x y from rfl]
    field_simp
    ring

/-- First component. -/
theorem hasGrad_sieX (hq : 0 < q) (hq1 : q < 1) (hs : 0 ≤ s) (h : s ≠ 0 ∨ x ≠ 0 ∨ y ≠ 0) (c : ℝ) :
    HasGrad (fun x y => c / √(1 - q ^ 2) * arctan (√(1 - q ^ 2) * x / (siePsi q s x y + s)))
      (c * (q ^ 2 * s ^ 2 + y ^ 2 + s * siePsi q s x y) / (siePsi q s x y * sieW q s x y))
      (-(c * (x * y)) / (siePsi q s x y * sieW q s x y)) x y := by
  have hp := siePsi_pos hq h
  have hW := sieW_pos hq hq1.le hs h
  have hf2 : 0 < 1 - q ^ 2 := by nlinarith
  have hf := sqrt_pos.mpr hf2
  have hfs := sq_sqrt hf2.le
  have hps := siePsi_sq (q := q) (s := s) (x := x) (y := y)
  have hd : siePsi q s x y + s ≠ 0 := by positivity
  have g := ((((HasGrad.fst x y).const_mul (√(1 - q ^ 2))).div
    ((hasGrad_siePsi hq h).add (HasGrad.const s x y)) hd).comp (hasDerivAt_arctan _)).const_mul
      (c / √(1 - q ^ 2))
  have e1 : 1 + (√(1 - q ^ 2) * x / (siePsi q s x y + s)) ^ 2
      = sieW q s x y / (siePsi q s x y + s) ^ 2 := by
    rw [div_pow, mul_pow, hfs, sieW]
    field_simp
  refine g.congr ?_ ?_
  all_goals
    simp only [e1]
    field_simp
  · linear_combination c * hps
  · ring

/-- Second component. -/
theorem hasGrad_sieY (hq : 0 < q) (hq1 : q < 1) (hs : 0 ≤ s) (h : s ≠ 0 ∨ x ≠ 0 ∨ y ≠ 0) (c : ℝ) :
    HasGrad (fun x y => c / √(1 - q ^ 2) * artanh (√(1 - q ^ 2) * y / (siePsi q s x y + q ^ 2 * s)))
      (-(c * (x * y)) / (siePsi q s x y * sieW q s x y))
      (c * (x ^ 2 + s ^ 2 + s * siePsi q s x y) / (siePsi q s x y * sieW q s x y)) x y := by
  have hp := siePsi_pos hq h
  have hW := sieW_pos hq hq1.le hs h
  have hf2 : 0 < 1 - q ^ 2 := by nlinarith
  have hf := sqrt_pos.mpr hf2
  have hfs := sq_sqrt hf2.le
  have hps := siePsi_sq (q := q) (s := s) (x := x) (y := y)
  have hd0 : 0 < siePsi q s x y + q ^ 2 * s := by positivity
  have hd := hd0.ne'
  have hWe := sieW_eq' q s x y
  have e1 : 1 - (√(1 - q ^ 2) * y / (siePsi q s x y + q ^ 2 * s)) ^ 2
      = q ^ 2 * sieW q s x y / (siePsi q s x y + q ^ 2 * s) ^ 2 := by
    rw [div_pow, mul_pow, hfs, ← hWe]
    field_simp
  have hlt : |√(1 - q ^ 2) * y / (siePsi q s x y + q ^ 2 * s)| < 1 := by
    rw [← sq_lt_one_iff_abs_lt_one]
    have : 0 < q ^ 2 * sieW q s x y / (siePsi q s x y + q ^ 2 * s) ^ 2 := by positivity
    linarith
  have g := ((((HasGrad.snd x y).const_mul (√(1 - q ^ 2))).div
    ((hasGrad_siePsi hq h).add (HasGrad.const (q ^ 2 * s) x y)) hd).comp
      (hasDerivAt_artanh ⟨(abs_lt.mp hlt).1, (abs_lt.mp hlt).2⟩)).const_mul (c / √(1 - q ^ 2))
  refine g.congr ?_ ?_
  all_goals
    simp only [e1]
    field_simp
  · ring
  · linear_combination c * hps

/-- The logarithm in the potential. -/
theorem hasGrad_sieLog (hq : 0 < q) (hq1 : q ≤ 1) (hs : 0 ≤ s) (h : s ≠ 0 ∨ x ≠ 0 ∨ y ≠ 0) :
    HasGrad (fun x y => log √(sieW q s x y))
      (x * (q ^ 2 * s + siePsi q s x y) / (siePsi q s x y * sieW q s x y))
      (y * (s + siePsi q s x y) / (siePsi q s x y * sieW q s x y)) x y := by
  have hp := siePsi_pos hq h
  have hW := sieW_pos hq hq1 hs h
  have hx := HasGrad.fst x y
  have hP := (hasGrad_siePsi hq h).add (HasGrad.const s x y)
  have g := (hP.mul hP).add ((hx.mul hx).const_mul (1 - q ^ 2))
  have e : (fun x y => (siePsi q s x y + s) * (siePsi q s x y + s) + (1 - q ^ 2) * (x * x))
      = sieW q s := by funext x y; simp only [sieW]; ring
  rw [e] at g
  have l := (g.comp (hasDerivAt_log hW.ne')).const_mul (1 / 2)
  have e2 : (fun x y => log √(sieW q s x y)) = fun x y => 1 / 2 * log (sieW q s x y) := by
    funext x y
    have hf2 : 0 ≤ 1 - q ^ 2 := by nlinarith
    rw [log_sqrt (by unfold sieW; positivity)]
    ring
  rw [e2]
  refine l.congr ?_ ?_ <;> field_simp <;> ring

end

end Caustics
