import Verif.Model.RangeEnds
import Verif.Props.EPL
import Verif.Props.FieldOfView
import Mathlib.Analysis.SpecialFunctions.Pow.Deriv
import Mathlib.Analysis.SpecialFunctions.Log.NegMulLog

/-!
C135: the ends of the ranges declared for slope and axis ratio, `t` in `[0, 2]` (lenses/epl.py:201) and `q` in `[0, 1]`
(lenses/epl.py:196, lenses/sie.py:124).
-/

open Real Filter Topology Finset

namespace Caustics

/-- A position off the line through the lens along its axis `phi`. -/
def OffAxis (x0 y0 phi x y : ℝ) : Prop := (y - y0) * cos phi - (x - x0) * sin phi ≠ 0

/-! ### The full claim -/

/-- At every declared slope and axis ratio the methods of the two elliptical lenses return numbers. -/
def C135_statement : Prop :=
  (∀ (x0 y0 q phi Rein t : ℝ) (N : ℕ) (x y : ℝ), 0 ≤ q → q ≤ 1 → 0 ≤ t → t ≤ 2 → 0 ≤ Rein → 2 ≤ N →
    OffAxis x0 y0 phi x y →
    (eplClassDeflectionOpt x0 y0 q phi Rein t N none 0 x y).isSome ∧
    (eplPotentialOpt x0 y0 q phi Rein t N none x y).isSome ∧
    (eplConvergenceOpt x0 y0 q phi Rein t 0 x y).isSome) ∧
  (∀ (x0 y0 q phi Rein s x y : ℝ), 0 ≤ q → q ≤ 1 → 0 ≤ Rein → 0 ≤ s → OffAxis x0 y0 phi x y →
    (sieDeflectionOpt x0 y0 q phi Rein s x y).isSome ∧ (sieConvergenceOpt x0 y0 q phi Rein s x y).isSome)

/-! ### Slope 0 -/

theorem eplCoef_zero_slope (n : ℕ) (hn : n ≠ 0) : eplCoef 0 n = 0 := by
  unfold eplCoef
  apply prod_eq_zero (i := 0) (by simp; omega)
  simp [eplFactor]

theorem eplField_zero_slope (q Rein : ℝ) (N : ℕ) (hN : 1 ≤ N) (x y : ℝ) :
    eplField q Rein 0 N x y = ((2 / (1 + q) : ℝ) : ℂ) * ⟨q * x, y⟩ := by
  rw [eplField, eplSum, sum_eq_single_of_mem 0 (by simp; omega)]
  · simp [eplCoef, eplZ]
  · intro n _ hn
    simp [eplCoef_zero_slope n hn]

/-- With slope 0 an EPL lens is a critical mass sheet with an external shear, whatever the Einstein radius and the number
of terms.  The shear is minus the ellipticity `(e1, e2)` of the lens. -/
theorem C135_sheet (x0 y0 q phi Rein : ℝ) (N : ℕ) (cs : Option ℕ) (hq : 0 ≤ q) (hN : 1 ≤ N) (hcs : ChunkOk N cs)
    (x y : ℝ) :
    eplDeflection x0 y0 q phi Rein 0 N cs x y = .ok
      (sheetDeflection x0 y0 1 x y +
        shearDeflection x0 y0 (-(qphiToE1e2 q phi).1) (-(qphiToE1e2 q phi).2) x y) ∧
    eplPotential x0 y0 q phi Rein 0 N cs x y = .ok
      (sheetPotential x0 y0 1 x y +
        shearPotential x0 y0 (-(qphiToE1e2 q phi).1) (-(qphiToE1e2 q phi).2) x y) ∧
    eplConvergence x0 y0 q phi Rein 0 0 x y = sheetConvergence 1 x y + shearConvergence x y := by
  have h1 : 1 + q ≠ 0 := by linarith
  have hd : eplDeflection x0 y0 q phi Rein 0 N cs x y = .ok
      (sheetDeflection x0 y0 1 x y +
        shearDeflection x0 y0 (-(qphiToE1e2 q phi).1) (-(qphiToE1e2 q phi).2) x y) := by
    simp only [eplDeflection, eplFrame_eq q Rein 0 N hN cs hcs, eplField_zero_slope q Rein N hN]
    change Except.ok _ = Except.ok _
    congr 1
    simp only [Complex.re_ofReal_mul, Complex.im_ofReal_mul, translateRotate, derotate, sheetDeflection, shearDeflection,
      qphiToE1e2, cos_two_mul, sin_two_mul, Prod.mk_add_mk]
    have cs' := sin_sq_add_cos_sq phi
    refine Prod.ext ?_ ?_
    · simp only
      field_simp
      linear_combination (2 * (x - x0)) * cs'
    · simp only
      field_simp
      linear_combination (2 * q * (y - y0)) * cs'
  refine ⟨hd, ?_, ?_⟩
  · simp only [eplPotential, hd]
    change Except.ok _ = Except.ok _
    congr 1
    simp only [translateRotate, derotate, sheetDeflection, shearDeflection, sheetPotential, shearPotential, cos_neg, sin_neg,
      Prod.mk_add_mk]
    generalize -(qphiToE1e2 q phi).1 = g1
    generalize -(qphiToE1e2 q phi).2 = g2
    have cs' := sin_sq_add_cos_sq phi
    norm_num
    linear_combination (((x - x0) * (x - x0 + (g1 * (x - x0) + g2 * (y - y0))) +
      (y - y0) * (y - y0 + (g2 * (x - x0) - g1 * (y - y0)))) / 2) * cs'
  · simp [eplConvergence, sheetConvergence, shearConvergence]

/-! ### Slope 2 -/

theorem eplCoef_two (n : ℕ) : eplCoef 2 n = 1 := by
  unfold eplCoef
  apply prod_eq_one
  intro i _
  have : (2 : ℝ) * ((i + 1 : ℕ) : ℝ) ≠ 0 := by positivity
  simp only [eplFactor, sub_self, sub_zero, add_zero]
  exact div_self this

theorem eplField_two (q Rein : ℝ) (N : ℕ) (hq : 0 < q) (x y : ℝ) (h : x ≠ 0 ∨ y ≠ 0) :
    eplField q Rein 2 N x y =
      ((Rein ^ 2 / (x ^ 2 + y ^ 2) : ℝ) : ℂ) * ⟨x, y⟩ * (1 - eplPhi q x y ^ N) := by
  obtain ⟨hz, hzb⟩ := eplZ_ne q hq h
  have hw : 0 < x ^ 2 + y ^ 2 := by
    rcases h with h | h
    · have := pow_pos (abs_pos.2 h) 2
      rw [sq_abs] at this
      positivity
    · have := pow_pos (abs_pos.2 h) 2
      rw [sq_abs] at this
      positivity
  have hn : 0 < q ^ 2 * x ^ 2 + y ^ 2 := by
    have h2 := norm_pos_iff.2 hz
    rw [norm_eplZ] at h2
    exact sqrt_pos.1 h2
  have hphi : (1 + (q : ℂ)) * eplZb q x y * (1 - eplPhi q x y) = 2 * q * ⟨x, -y⟩ := by
    have h1 : (1 + (q : ℂ)) ≠ 0 := by
      rw [← Complex.ofReal_one, ← Complex.ofReal_add, Complex.ofReal_ne_zero]
      positivity
    have : (1 + (q : ℂ)) * eplZb q x y * (1 - eplPhi q x y) =
        (1 + q) * eplZb q x y + (1 - q) * eplZ q x y := by
      rw [eplPhi]
      push_cast
      field_simp
      ring
    rw [this]
    apply Complex.ext <;> simp [eplZ, eplZb] <;> ring
  have hne : (1 - eplPhi q x y) ≠ 0 := by
    intro h0
    rw [h0, mul_zero] at hphi
    have h3 := congrArg Complex.re hphi
    have h4 := congrArg Complex.im hphi
    simp at h3 h4
    rcases h with h | h
    · exact (h3.resolve_left hq.ne') |> h
    · exact (h4.resolve_left hq.ne') |> h
  have hgeom : ∑ n ∈ range N, (eplCoef 2 n : ℂ) * eplPhi q x y ^ n =
      (1 - eplPhi q x y ^ N) / (1 - eplPhi q x y) := by
    simp only [eplCoef_two, Complex.ofReal_one, one_mul]
    rw [eq_div_iff hne]
    exact geom_sum_mul_neg _ _
  rw [eplField, eplSum, hgeom]
  have hzz : eplZ q x y * eplZb q x y = ((q ^ 2 * x ^ 2 + y ^ 2 : ℝ) : ℂ) := by
    refine Complex.ext ?_ ?_
    · rw [Complex.ofReal_re, Complex.mul_re]; simp only [eplZ, eplZb]; ring
    · rw [Complex.ofReal_im, Complex.mul_im]; simp only [eplZ, eplZb]; ring
  have hww : (⟨x, y⟩ : ℂ) * ⟨x, -y⟩ = ((x ^ 2 + y ^ 2 : ℝ) : ℂ) := by
    refine Complex.ext ?_ ?_
    · rw [Complex.ofReal_re, Complex.mul_re]; simp only; ring
    · rw [Complex.ofReal_im, Complex.mul_im]; simp only; ring
  have hpow : (Rein * √q / √(q ^ 2 * x ^ 2 + y ^ 2)) ^ (2 : ℝ) = Rein ^ 2 * q / (q ^ 2 * x ^ 2 + y ^ 2) := by
    rw [rpow_two, div_pow, mul_pow, sq_sqrt hq.le, sq_sqrt hn.le]
  rw [hpow]
  have h1 : (1 + (q : ℂ)) ≠ 0 := by
    rw [← Complex.ofReal_one, ← Complex.ofReal_add, Complex.ofReal_ne_zero]
    positivity
  have hnC : ((q ^ 2 * x ^ 2 + y ^ 2 : ℝ) : ℂ) ≠ 0 := Complex.ofReal_ne_zero.2 hn.ne'
  have hwC : ((x ^ 2 + y ^ 2 : ℝ) : ℂ) ≠ 0 := Complex.ofReal_ne_zero.2 hw.ne'
  generalize eplPhi q x y = φ at *
  have e1 : ((2 / (1 + q) * (Rein ^ 2 * q / (q ^ 2 * x ^ 2 + y ^ 2)) : ℝ) : ℂ) =
      2 * q * Rein ^ 2 / ((1 + q) * ((q ^ 2 * x ^ 2 + y ^ 2 : ℝ) : ℂ)) := by
    push_cast
    field_simp
  have e2 : ((Rein ^ 2 / (x ^ 2 + y ^ 2) : ℝ) : ℂ) = Rein ^ 2 / ((x ^ 2 + y ^ 2 : ℝ) : ℂ) := by push_cast; rfl
  rw [e1, e2, ← hzz, ← hww]
  have hwb : (⟨x, -y⟩ : ℂ) ≠ 0 := by
    intro h0
    rw [h0, mul_zero] at hww
    exact hwC hww.symm
  have hwp : (⟨x, y⟩ : ℂ) ≠ 0 := by
    intro h0
    rw [h0, zero_mul] at hww
    exact hwC hww.symm
  generalize (⟨x, y⟩ : ℂ) = w at *
  generalize (⟨x, -y⟩ : ℂ) = wb at *
  generalize eplZ q x y = z at *
  generalize eplZb q x y = zb at *
  field_simp
  linear_combination (-(Rein : ℂ) ^ 2 * (1 - φ ^ N)) * hphi

theorem ends_ne {x0 y0 x y : ℝ} (phi : ℝ) (h : (x, y) ≠ (x0, y0)) :
    (x - x0) * cos phi + (y - y0) * sin phi ≠ 0 ∨ (y - y0) * cos phi - (x - x0) * sin phi ≠ 0 := by
  by_contra hc
  push Not at hc
  obtain ⟨h1, h2⟩ := hc
  have cs' := sin_sq_add_cos_sq phi
  have e1 : x - x0 = 0 := by linear_combination (-(x - x0)) * cs' + cos phi * h1 - sin phi * h2
  have e2 : y - y0 = 0 := by linear_combination (-(y - y0)) * cs' + sin phi * h1 + cos phi * h2
  exact h (by rw [Prod.mk.injEq]; constructor <;> linarith)

theorem ends_sq (a b phi : ℝ) :
    (a * cos phi + b * sin phi) ^ 2 + (b * cos phi - a * sin phi) ^ 2 = a ^ 2 + b ^ 2 := by
  linear_combination (a ^ 2 + b ^ 2) * sin_sq_add_cos_sq phi

theorem eplDeflection_ok (x0 y0 q phi Rein t : ℝ) (N : ℕ) (cs : Option ℕ) (hN : 1 ≤ N) (hcs : ChunkOk N cs) (x y : ℝ) :
    eplDeflection x0 y0 q phi Rein t N cs x y = .ok
      (derotate (eplField q Rein t N ((x - x0) * cos phi + (y - y0) * sin phi)
        ((y - y0) * cos phi - (x - x0) * sin phi)).re
      (eplField q Rein t N ((x - x0) * cos phi + (y - y0) * sin phi)
        ((y - y0) * cos phi - (x - x0) * sin phi)).im (some phi)) := by
  simp only [eplDeflection, eplFrame_eq q Rein t N hN cs hcs, translateRotate]
  rfl

theorem eplPotential_ok (x0 y0 q phi Rein t : ℝ) (N : ℕ) (cs : Option ℕ) (hN : 1 ≤ N) (hcs : ChunkOk N cs) (x y : ℝ) :
    eplPotential x0 y0 q phi Rein t N cs x y = .ok
      ((((x - x0) * cos phi + (y - y0) * sin phi) *
        (eplField q Rein t N ((x - x0) * cos phi + (y - y0) * sin phi) ((y - y0) * cos phi - (x - x0) * sin phi)).re
      + ((y - y0) * cos phi - (x - x0) * sin phi) *
        (eplField q Rein t N ((x - x0) * cos phi + (y - y0) * sin phi)
          ((y - y0) * cos phi - (x - x0) * sin phi)).im) / (2 - t)) := by
  simp only [eplPotential, eplDeflection_ok x0 y0 q phi Rein t N cs hN hcs]
  change Except.ok _ = Except.ok _
  congr 1
  simp only [translateRotate, derotate, cos_neg, sin_neg]
  generalize (x - x0) * cos phi + (y - y0) * sin phi = X
  generalize (y - y0) * cos phi - (x - x0) * sin phi = Y
  generalize (eplField q Rein t N X Y).re = a
  generalize (eplField q Rein t N X Y).im = b
  congr 1
  linear_combination (X * a + Y * b) * sin_sq_add_cos_sq phi

/-- With slope 2 an EPL lens is a point mass of the same Einstein radius, whatever its axis ratio and orientation, up to
the part of the series that is left out: relative error `((1 - q) / (1 + q)) ^ n_iter`, and none for a round lens.  Its
convergence vanishes. -/
theorem C135_point (x0 y0 q phi Rein : ℝ) (N : ℕ) (cs : Option ℕ) (hq : 0 < q) (hq1 : q ≤ 1) (hN : 1 ≤ N)
    (hcs : ChunkOk N cs) (x y : ℝ) (h : (x, y) ≠ (x0, y0)) :
    (∃ a, eplDeflection x0 y0 q phi Rein 2 N cs x y = .ok a ∧
      len2 (a - pointDeflection x0 y0 Rein 0 x y)
        = ((1 - q) / (1 + q)) ^ N * len2 (pointDeflection x0 y0 Rein 0 x y)) ∧
    ∀ s, eplConvergence x0 y0 q phi Rein 2 s x y = 0 := by
  refine ⟨⟨_, eplDeflection_ok x0 y0 q phi Rein 2 N cs hN hcs x y, ?_⟩, fun s => by simp [eplConvergence]⟩
  have hne := ends_ne phi h
  have hsq := ends_sq (x - x0) (y - y0) phi
  rw [eplField_two q Rein N hq _ _ hne]
  have hphi := norm_eplPhi q hq hq1 hne
  have cs' := sin_sq_add_cos_sq phi
  have hp : pointDeflection x0 y0 Rein 0 x y = derotate
      (Rein ^ 2 / ((x - x0) ^ 2 + (y - y0) ^ 2) * ((x - x0) * cos phi + (y - y0) * sin phi))
      (Rein ^ 2 / ((x - x0) ^ 2 + (y - y0) ^ 2) * ((y - y0) * cos phi - (x - x0) * sin phi)) (some phi) := by
    simp only [pointDeflection, translateRotate, derotate, add_zero]
    rw [sq_sqrt (by positivity)]
    refine Prod.ext ?_ ?_
    · simp only
      linear_combination (-(Rein ^ 2 / ((x - x0) ^ 2 + (y - y0) ^ 2) * (x - x0))) * cs'
    · simp only
      linear_combination (-(Rein ^ 2 / ((x - x0) ^ 2 + (y - y0) ^ 2) * (y - y0))) * cs'
  rw [hp, hsq]
  generalize (x - x0) * cos phi + (y - y0) * sin phi = X at *
  generalize (y - y0) * cos phi - (x - x0) * sin phi = Y at *
  generalize Rein ^ 2 / ((x - x0) ^ 2 + (y - y0) ^ 2) = k at *
  have hsub : ∀ a b c d : ℝ, derotate a b (some phi) - derotate c d (some phi) =
      derotate (a - c) (b - d) (some phi) := by
    intro a b c d
    simp only [derotate, Prod.mk_sub_mk]
    refine Prod.ext ?_ ?_ <;> simp only <;> ring
  rw [hsub, len2_derotate, len2_derotate, len2_eq_norm, len2_eq_norm]
  have e1 : (⟨((k : ℂ) * ⟨X, Y⟩ * (1 - eplPhi q X Y ^ N)).re - k * X,
      ((k : ℂ) * ⟨X, Y⟩ * (1 - eplPhi q X Y ^ N)).im - k * Y⟩ : ℂ) = -(eplPhi q X Y ^ N * ((k : ℂ) * ⟨X, Y⟩)) := by
    have : (⟨k * X, k * Y⟩ : ℂ) = (k : ℂ) * ⟨X, Y⟩ := by
      refine Complex.ext ?_ ?_ <;> simp
    have h2 : (⟨((k : ℂ) * ⟨X, Y⟩ * (1 - eplPhi q X Y ^ N)).re - k * X,
      ((k : ℂ) * ⟨X, Y⟩ * (1 - eplPhi q X Y ^ N)).im - k * Y⟩ : ℂ) =
      (k : ℂ) * ⟨X, Y⟩ * (1 - eplPhi q X Y ^ N) - ⟨k * X, k * Y⟩ := by
      refine Complex.ext ?_ ?_ <;> simp only [Complex.sub_re, Complex.sub_im]
    rw [h2, this]
    ring
  have e2 : (⟨k * X, k * Y⟩ : ℂ) = (k : ℂ) * ⟨X, Y⟩ := by refine Complex.ext ?_ ?_ <;> simp
  simp only
  rw [e1, e2, norm_neg, norm_mul, norm_pow, hphi]

/-! ### The potential towards slope 2 -/

/-- The potential of an EPL lens with slope 2 is a division by zero, at every position. -/
theorem C135_fails_epl_potential (x0 y0 q phi Rein : ℝ) (N : ℕ) (cs : Option ℕ) (x y : ℝ) :
    eplPotentialOpt x0 y0 q phi Rein 2 N cs x y = none := by
  unfold eplPotentialOpt
  rw [sub_self]
  cases (eplDeflection x0 y0 q phi Rein 2 N cs x y).toOption with
  | none => rfl
  | some a => exact divOpt_zero _

theorem continuousAt_eplCoef (n : ℕ) : ContinuousAt (fun t => eplCoef t n) 2 := by
  unfold eplCoef eplFactor
  refine tendsto_finsetProd _ fun i _ => ?_
  refine ContinuousAt.div (by fun_prop) (by fun_prop) ?_
  have : (0 : ℝ) < 2 * ((i + 1 : ℕ) : ℝ) := by positivity
  rw [sub_self, add_zero]
  exact this.ne'

theorem continuousAt_eplField (q Rein : ℝ) (N : ℕ) (hq : 0 < q) (hR : 0 < Rein) (x y : ℝ) (h : x ≠ 0 ∨ y ≠ 0) :
    ContinuousAt (fun t => eplField q Rein t N x y) 2 := by
  unfold eplField eplSum
  have hn : 0 < √(q ^ 2 * x ^ 2 + y ^ 2) := by
    have h2 := norm_pos_iff.2 (eplZ_ne q hq h).1
    rwa [norm_eplZ] at h2
  have hb : 0 < Rein * √q / √(q ^ 2 * x ^ 2 + y ^ 2) := by
    have := sqrt_pos.2 hq
    positivity
  have h1 : ContinuousAt (fun t : ℝ => 2 / (1 + q) * (Rein * √q / √(q ^ 2 * x ^ 2 + y ^ 2)) ^ t) 2 :=
    continuousAt_const.mul (Real.continuousAt_const_rpow hb.ne')
  refine (Complex.continuous_ofReal.continuousAt.comp h1).mul (continuousAt_const.mul ?_)
  refine tendsto_finsetSum _ fun n _ => ?_
  exact (Complex.continuous_ofReal.continuousAt.comp (continuousAt_eplCoef n)).mul continuousAt_const

/-- There is no value it could have: as the slope grows to 2 the potential grows beyond all bounds, at every position but
the centre. -/
theorem C135_potential_infinite (x0 y0 q phi Rein : ℝ) (N : ℕ) (cs : Option ℕ) (hq : 0 < q) (hq1 : q ≤ 1) (hR : 0 < Rein)
    (hN : 1 ≤ N) (hcs : ChunkOk N cs) (x y : ℝ) (h : (x, y) ≠ (x0, y0)) :
    ∃ ψ : ℝ → ℝ, (∀ t, eplPotential x0 y0 q phi Rein t N cs x y = .ok (ψ t)) ∧ Tendsto ψ (𝓝[<] 2) atTop := by
  refine ⟨_, fun t => eplPotential_ok x0 y0 q phi Rein t N cs hN hcs x y, ?_⟩
  have hne := ends_ne phi h
  generalize (x - x0) * cos phi + (y - y0) * sin phi = X at *
  generalize (y - y0) * cos phi - (x - x0) * sin phi = Y at *
  have hphi := norm_eplPhi q hq hq1 hne
  have hc := continuousAt_eplField q Rein N hq hR X Y hne
  have hw : 0 < X ^ 2 + Y ^ 2 := by
    rcases hne with h | h
    · have := pow_pos (abs_pos.2 h) 2
      rw [sq_abs] at this
      positivity
    · have := pow_pos (abs_pos.2 h) 2
      rw [sq_abs] at this
      positivity
  have hnum : ContinuousAt (fun t => X * (eplField q Rein t N X Y).re + Y * (eplField q Rein t N X Y).im) 2 :=
    (continuousAt_const.mul (Complex.continuous_re.continuousAt.comp hc)).add
      (continuousAt_const.mul (Complex.continuous_im.continuousAt.comp hc))
  have hval : 0 < X * (eplField q Rein 2 N X Y).re + Y * (eplField q Rein 2 N X Y).im := by
    rw [eplField_two q Rein N hq X Y hne]
    have hlt : ‖eplPhi q X Y ^ N‖ < 1 := by
      rw [norm_pow, hphi]
      have h0 : 0 ≤ (1 - q) / (1 + q) := div_nonneg (by linarith) (by linarith)
      refine pow_lt_one₀ h0 ?_ (by omega)
      rw [div_lt_one (by linarith)]
      linarith
    have hre := (Complex.re_le_norm (eplPhi q X Y ^ N)).trans_lt hlt
    generalize eplPhi q X Y ^ N = u at hre
    have : X * (((Rein ^ 2 / (X ^ 2 + Y ^ 2) : ℝ) : ℂ) * ⟨X, Y⟩ * (1 - u)).re +
        Y * (((Rein ^ 2 / (X ^ 2 + Y ^ 2) : ℝ) : ℂ) * ⟨X, Y⟩ * (1 - u)).im = Rein ^ 2 * (1 - u.re) := by
      simp only [Complex.mul_re, Complex.mul_im, Complex.ofReal_re, Complex.ofReal_im, Complex.sub_re, Complex.sub_im,
        Complex.one_re, Complex.one_im]
      field_simp
      ring
    rw [this]
    have : 0 < 1 - u.re := by linarith
    positivity
  have hden : Tendsto (fun t : ℝ => (2 - t)⁻¹) (𝓝[<] 2) atTop := by
    refine tendsto_inv_nhdsGT_zero.comp ?_
    refine tendsto_nhdsWithin_iff.2 ⟨?_, ?_⟩
    · have : ContinuousAt (fun t : ℝ => 2 - t) 2 := by fun_prop
      have h2 := this.tendsto
      simp only [sub_self] at h2
      exact h2.mono_left nhdsWithin_le_nhds
    · filter_upwards [self_mem_nhdsWithin] with t ht
      exact sub_pos.2 (Set.mem_Iio.1 ht)
  have := (hnum.tendsto.mono_left nhdsWithin_le_nhds).pos_mul_atTop hval hden
  refine this.congr fun t => ?_
  rw [div_eq_mul_inv]

theorem eplField_round (Rein t : ℝ) (N : ℕ) (hN : 1 ≤ N) (x y : ℝ) :
    eplField 1 Rein t N x y = (((Rein / √(x ^ 2 + y ^ 2)) ^ t : ℝ) : ℂ) * ⟨x, y⟩ := by
  have hphi : eplPhi 1 x y = 0 := by simp [eplPhi]
  rw [eplField, hphi, eplSum, sum_eq_single_of_mem 0 (by simp; omega)]
  · simp [eplCoef, eplZ]
    norm_num
  · intro n _ hn; simp [zero_pow hn]

theorem round_potential (x0 y0 phi Rein t : ℝ) (N : ℕ) (cs : Option ℕ) (hN : 1 ≤ N) (hcs : ChunkOk N cs) (hR : 0 < Rein)
    (x y : ℝ) (h : (x, y) ≠ (x0, y0)) :
    eplPotential x0 y0 1 phi Rein t N cs x y =
      .ok (Rein ^ 2 * (√((x - x0) ^ 2 + (y - y0) ^ 2) / Rein) ^ (2 - t) / (2 - t)) := by
  rw [eplPotential_ok x0 y0 1 phi Rein t N cs hN hcs, eplField_round Rein t N hN, ends_sq]
  have hsq := ends_sq (x - x0) (y - y0) phi
  congr 2
  simp only [Complex.re_ofReal_mul, Complex.im_ofReal_mul]
  have hw : 0 < (x - x0) ^ 2 + (y - y0) ^ 2 := by
    by_contra hc
    have h1 : (x - x0) ^ 2 = 0 := by nlinarith [sq_nonneg (x - x0), sq_nonneg (y - y0)]
    have h2 : (y - y0) ^ 2 = 0 := by nlinarith [sq_nonneg (x - x0), sq_nonneg (y - y0)]
    exact h (by
      rw [Prod.mk.injEq]
      exact ⟨sub_eq_zero.1 (pow_eq_zero_iff two_ne_zero |>.1 h1), sub_eq_zero.1 (pow_eq_zero_iff two_ne_zero |>.1 h2)⟩)
  generalize (x - x0) * cos phi + (y - y0) * sin phi = X at *
  generalize (y - y0) * cos phi - (x - x0) * sin phi = Y at *
  have hr := sqrt_pos.2 hw
  have hrr := sq_sqrt hw.le
  rw [← hrr] at hsq
  generalize √((x - x0) ^ 2 + (y - y0) ^ 2) = r at *
  have e1 : (r / Rein) ^ (2 - t) = (r / Rein) ^ 2 * (Rein / r) ^ t := by
    rw [rpow_sub (by positivity), rpow_two, div_eq_mul_inv, ← inv_rpow (by positivity), inv_div]
  rw [e1]
  have : Rein ^ 2 * ((r / Rein) ^ 2 * (Rein / r) ^ t) = r ^ 2 * (Rein / r) ^ t := by
    field_simp
  rw [this, ← hsq]
  ring

/-- Differences of the potential do have a limit.  For a round lens it is the difference of the potential of the point
mass. -/
theorem C135_potential_differences (x0 y0 phi Rein : ℝ) (N : ℕ) (cs : Option ℕ) (hR : 0 < Rein) (hN : 1 ≤ N)
    (hcs : ChunkOk N cs) (x y x' y' : ℝ) (h : (x, y) ≠ (x0, y0)) (h' : (x', y') ≠ (x0, y0)) :
    ∃ ψ ψ' : ℝ → ℝ, (∀ t, eplPotential x0 y0 1 phi Rein t N cs x y = .ok (ψ t)) ∧
      (∀ t, eplPotential x0 y0 1 phi Rein t N cs x' y' = .ok (ψ' t)) ∧
      Tendsto (fun t => ψ t - ψ' t) (𝓝[≠] 2)
        (𝓝 (pointPotential x0 y0 Rein 0 x y - pointPotential x0 y0 Rein 0 x' y')) := by
  refine ⟨_, _, fun t => round_potential x0 y0 phi Rein t N cs hN hcs hR x y h,
    fun t => round_potential x0 y0 phi Rein t N cs hN hcs hR x' y' h', ?_⟩
  have pos : ∀ {x y : ℝ}, (x, y) ≠ (x0, y0) → 0 < √((x - x0) ^ 2 + (y - y0) ^ 2) := by
    intro x y h
    refine sqrt_pos.2 ?_
    by_contra hc
    have h1 : (x - x0) ^ 2 = 0 := by nlinarith [sq_nonneg (x - x0), sq_nonneg (y - y0)]
    have h2 : (y - y0) ^ 2 = 0 := by nlinarith [sq_nonneg (x - x0), sq_nonneg (y - y0)]
    exact h (by
      rw [Prod.mk.injEq]
      exact ⟨sub_eq_zero.1 (pow_eq_zero_iff two_ne_zero |>.1 h1), sub_eq_zero.1 (pow_eq_zero_iff two_ne_zero |>.1 h2)⟩)
  have hr := pos h
  have hr' := pos h'
  simp only [pointPotential, translateRotate, add_zero]
  generalize √((x - x0) ^ 2 + (y - y0) ^ 2) = r at *
  generalize √((x' - x0) ^ 2 + (y' - y0) ^ 2) = r' at *
  have hd : HasDerivAt (fun t : ℝ => Rein ^ 2 * (r / Rein) ^ (2 - t) - Rein ^ 2 * (r' / Rein) ^ (2 - t))
      (-(Rein ^ 2 * log r - Rein ^ 2 * log r')) 2 := by
    have hs : HasDerivAt (fun t : ℝ => 2 - t) (-1) 2 := by simpa using (hasDerivAt_id (2 : ℝ)).const_sub 2
    have h1 := (hs.const_rpow (a := r / Rein) (by positivity)).const_mul (Rein ^ 2)
    have h2 := (hs.const_rpow (a := r' / Rein) (by positivity)).const_mul (Rein ^ 2)
    refine (h1.sub h2).congr_deriv ?_
    rw [log_div hr.ne' hR.ne', log_div hr'.ne' hR.ne']
    norm_num
    ring
  have ht := hd.tendsto_slope.neg
  rw [neg_neg] at ht
  refine ht.congr' ?_
  filter_upwards [self_mem_nhdsWithin] with t ht
  have h2 : t - 2 ≠ 0 := sub_ne_zero.2 ht
  have h3 : 2 - t ≠ 0 := sub_ne_zero.2 (Ne.symm ht)
  rw [slope_def_field]
  norm_num
  rw [← sub_div, ← neg_sub t 2, div_neg]

/-! ### Axis ratio 0 -/

/-- An EPL lens with axis ratio 0 deflects nothing and has no convergence off its axis. -/
theorem C135_line (x0 y0 phi Rein t : ℝ) (N : ℕ) (cs : Option ℕ) (ht : 0 < t) (hN : 1 ≤ N) (hcs : ChunkOk N cs) (x y : ℝ) :
    eplDeflection x0 y0 0 phi Rein t N cs x y = .ok (0, 0) ∧
    (OffAxis x0 y0 phi x y → eplConvergenceOpt x0 y0 0 phi Rein t 0 x y = some 0) := by
  constructor
  · rw [eplDeflection_ok x0 y0 0 phi Rein t N cs hN hcs]
    simp [eplField, derotate, zero_rpow ht.ne']
  · intro h
    have hY : 0 < √(((y - y0) * cos phi - (x - x0) * sin phi) ^ 2) := sqrt_pos.2 (by
      have := pow_pos (abs_pos.2 h) 2
      rwa [sq_abs] at this)
    simp [eplConvergenceOpt, translateRotate, sqrtOpt_eq, sq_nonneg, divOpt, hY.ne', powOpt, ht.le, zero_rpow ht.ne']

theorem continuousAt_eplField_q (Rein t : ℝ) (N : ℕ) (ht : 0 < t) (x y : ℝ) (h : y ≠ 0) :
    ContinuousAt (fun q => eplField q Rein t N x y) 0 := by
  have hZ : ContinuousAt (fun q : ℝ => eplZ q x y) 0 := by
    have : (fun q : ℝ => eplZ q x y) = fun q : ℝ => (q : ℂ) * x + y * Complex.I := by
      funext q
      refine Complex.ext ?_ ?_ <;> simp [eplZ]
    rw [this]
    fun_prop
  have hZb : ContinuousAt (fun q : ℝ => eplZb q x y) 0 := by
    have : (fun q : ℝ => eplZb q x y) = fun q : ℝ => (q : ℂ) * x - y * Complex.I := by
      funext q
      refine Complex.ext ?_ ?_ <;> simp [eplZb]
    rw [this]
    fun_prop
  have hne : eplZb 0 x y ≠ 0 := by
    intro h0
    have := congrArg Complex.im h0
    simp [eplZb] at this
    exact h this
  have hf : ContinuousAt (fun q : ℝ => (-((1 - q) / (1 + q)) : ℝ)) 0 :=
    (ContinuousAt.div (by fun_prop) (by fun_prop) (by norm_num)).neg
  have hphi : ContinuousAt (fun q : ℝ => eplPhi q x y) 0 :=
    (hZ.div hZb hne).mul (Complex.continuous_ofReal.continuousAt.comp hf)
  have hn : √((0 : ℝ) ^ 2 * x ^ 2 + y ^ 2) ≠ 0 := by
    refine (sqrt_pos.2 ?_).ne'
    have := pow_pos (abs_pos.2 h) 2
    rw [sq_abs] at this
    simpa using this
  have hb : ContinuousAt (fun q : ℝ => Rein * √q / √(q ^ 2 * x ^ 2 + y ^ 2)) 0 :=
    ContinuousAt.div (by fun_prop) (by fun_prop) hn
  have hp : ContinuousAt (fun q : ℝ => 2 / (1 + q) * (Rein * √q / √(q ^ 2 * x ^ 2 + y ^ 2)) ^ t) 0 :=
    (ContinuousAt.div (by fun_prop) (by fun_prop) (by norm_num)).mul (hb.rpow_const (Or.inr ht.le))
  unfold eplField eplSum
  refine (Complex.continuous_ofReal.continuousAt.comp hp).mul (hZ.mul ?_)
  exact tendsto_finsetSum _ fun n _ => continuousAt_const.mul (hphi.pow n)

/-- It is the limit of thinner and thinner lenses. -/
theorem C135_line_limit (x0 y0 phi Rein t : ℝ) (N : ℕ) (cs : Option ℕ) (ht : 0 < t) (hN : 1 ≤ N) (hcs : ChunkOk N cs)
    (x y : ℝ) (h : OffAxis x0 y0 phi x y) :
    ∃ α : ℝ → ℝ × ℝ, (∀ q, eplDeflection x0 y0 q phi Rein t N cs x y = .ok (α q)) ∧ Tendsto α (𝓝 0) (𝓝 (0, 0)) := by
  refine ⟨_, fun q => eplDeflection_ok x0 y0 q phi Rein t N cs hN hcs x y, ?_⟩
  have hc := continuousAt_eplField_q Rein t N ht ((x - x0) * cos phi + (y - y0) * sin phi) _ h
  have h0 := (C135_line x0 y0 phi Rein t N cs ht hN hcs x y).1
  rw [eplDeflection_ok x0 y0 0 phi Rein t N cs hN hcs] at h0
  rw [← Except.ok.inj h0]
  have hre := Complex.continuous_re.continuousAt.comp hc
  have him := Complex.continuous_im.continuousAt.comp hc
  have : ContinuousAt (fun q => derotate
      (eplField q Rein t N ((x - x0) * cos phi + (y - y0) * sin phi) ((y - y0) * cos phi - (x - x0) * sin phi)).re
      (eplField q Rein t N ((x - x0) * cos phi + (y - y0) * sin phi) ((y - y0) * cos phi - (x - x0) * sin phi)).im
      (some phi)) 0 :=
    ((hre.mul continuousAt_const).sub (him.mul continuousAt_const)).prodMk
      ((hre.mul continuousAt_const).add (him.mul continuousAt_const))
  exact this.tendsto

/-- An SIE with axis ratio 0 returns no number at any position. -/
theorem C135_fails_sie_line (x0 y0 phi Rein s x y : ℝ) : sieDeflectionOpt x0 y0 0 phi Rein s x y = none := by
  have hq : sieQ 0 = 0 := by simp [sieQ]
  simp only [sieDeflectionOpt, hq]
  generalize translateRotate x y x0 y0 (some phi) = p
  have h1 : sqrtOpt (1 - (0 : ℝ) ^ 2) = some 1 := by simp [sqrtOpt]
  have h2 : sqrtOpt 0 = some 0 := by simp [sqrtOpt]
  have h3 : sqrtOpt ((0 : ℝ) ^ 2 * (p.1 ^ 2 + s ^ 2) + p.2 ^ 2) = some |p.2| := by
    simp [sqrtOpt, sqrt_sq_eq_abs, sq_nonneg]
  simp only [h1, h2, h3, Option.bind_eq_bind, Option.bind_some]
  have h4 : divOpt (Rein * 0) 1 = some 0 := by simp [divOpt]
  rw [h4, Option.bind_some]
  cases divOpt (1 * p.1) (|p.2| + s) with
  | none => rfl
  | some u =>
    rw [Option.bind_some]
    by_cases hy : p.2 = 0
    · simp [hy, divOpt]
    · have h5 : divOpt (1 * p.2) (|p.2| + 0 ^ 2 * s) = some (p.2 / |p.2|) := by simp [divOpt, hy]
      have h6 : atanhOpt (p.2 / |p.2|) = none := by
        rw [atanhOpt, if_neg]
        rw [abs_div, abs_abs, div_self (abs_ne_zero.2 hy)]
        exact lt_irrefl 1
      simp only [h5, Option.bind_some, h6, Option.bind_none]

/-- In the angle system `e1_e2` every ellipticity of length 1 or more becomes axis ratio 0. -/
theorem C135_fails_sie_e1e2 (x0 y0 e1 e2 Rein s x y : ℝ) (h : 1 ≤ e1 ^ 2 + e2 ^ 2) :
    sieDeflectionOpt x0 y0 (e1e2ToQ e1 e2) (e1e2ToPhi e1 e2) Rein s x y = none := by
  have : e1e2ToQ e1 e2 = 0 := by
    have h1 : 1 ≤ √(e1 ^ 2 + e2 ^ 2) := by rwa [one_le_sqrt]
    simp [e1e2ToQ, min_eq_left h1]
  rw [this]
  exact C135_fails_sie_line x0 y0 _ Rein s x y

theorem artanh_le_log {u d : ℝ} (hu : 0 ≤ u) (hd : 0 < d) (h : u ≤ 1 - d) : artanh u ≤ 1 / 2 * log (2 / d) := by
  rw [artanh_eq_half_log ⟨by linarith, by linarith⟩]
  have h1 : (1 + u) / (1 - u) ≤ 2 / d := by
    rw [div_le_div_iff₀ (by linarith) hd]
    nlinarith
  have h2 : 0 < (1 + u) / (1 - u) := div_pos (by linarith) (by linarith)
  have := log_le_log h2 h1
  linarith

theorem sieReach_le (q Rein : ℝ) (hq : 0 < q) (hq1 : q ≤ 1 / 2) (hR : 0 ≤ Rein) :
    sieReach q Rein ≤ 16 * Rein * q ^ ((1 : ℝ) / 4) := by
  have hf2 : 3 / 4 ≤ 1 - q ^ 2 := by nlinarith
  have hf : 1 / 2 ≤ √(1 - q ^ 2) := le_sqrt_of_sq_le (by nlinarith)
  have hfd : √(1 - q ^ 2) ≤ 1 - q ^ 2 / 2 := by
    rw [sqrt_le_left (by nlinarith)]
    nlinarith [sq_nonneg (q ^ 2)]
  have ha := artanh_le_log (sqrt_nonneg (1 - q ^ 2)) (by positivity : (0 : ℝ) < q ^ 2 / 2) hfd
  have hl : 1 / 2 * log (2 / (q ^ 2 / 2)) = log (2 / q) := by
    have : 2 / (q ^ 2 / 2) = (2 / q) ^ 2 := by field_simp
    rw [this, log_pow]
    push_cast
    ring
  rw [hl] at ha
  have hlog := log_le_rpow_div (x := 2 / q) (by positivity) (by norm_num : (0 : ℝ) < 1 / 4)
  have h2q : (2 / q) ^ ((1 : ℝ) / 4) ≤ 2 / q ^ ((1 : ℝ) / 4) := by
    rw [div_rpow (by norm_num) hq.le]
    gcongr
    calc (2 : ℝ) ^ ((1 : ℝ) / 4) ≤ 2 ^ (1 : ℝ) := rpow_le_rpow_of_exponent_le (by norm_num) (by norm_num)
      _ = 2 := rpow_one 2
  have hs : √q = q ^ ((1 : ℝ) / 4) * q ^ ((1 : ℝ) / 4) := by
    rw [← rpow_add hq, sqrt_eq_rpow]
    norm_num
  have hb : 0 < q ^ ((1 : ℝ) / 4) := rpow_pos_of_pos hq _
  have ha0 : 0 ≤ artanh √(1 - q ^ 2) := artanh_nonneg (sqrt_nonneg _)
  have hmain : artanh √(1 - q ^ 2) ≤ 8 / q ^ ((1 : ℝ) / 4) := by
    refine ha.trans (hlog.trans ?_)
    calc (2 / q) ^ ((1 : ℝ) / 4) / (1 / 4) ≤ 2 / q ^ ((1 : ℝ) / 4) / (1 / 4) := by gcongr
      _ = 8 / q ^ ((1 : ℝ) / 4) := by ring
  unfold sieReach
  rw [hs]
  generalize q ^ ((1 : ℝ) / 4) = b at *
  calc Rein * (b * b) / √(1 - q ^ 2) * artanh √(1 - q ^ 2)
      ≤ Rein * (b * b) / (1 / 2) * (8 / b) := by gcongr
    _ = 16 * Rein * b := by field_simp; ring

/-- Although the deflection of thinner and thinner SIEs goes to 0, everywhere at once. -/
theorem C135_sie_limit (x0 y0 q phi Rein s x y : ℝ) (hq : 0 < q) (hq1 : q ≤ 1 / 2) (hR : 0 ≤ Rein) (hs : 0 ≤ s)
    (h : (x, y) ≠ (x0, y0)) :
    ∃ a, sieDeflectionOpt x0 y0 q phi Rein s x y = some a ∧ len2 a ≤ 16 * Rein * q ^ ((1 : ℝ) / 4) := by
  refine ⟨_, sieDeflectionOpt_eq hq (by linarith) hs (Or.inr h), ?_⟩
  have := C128_sie x0 y0 q phi Rein s hq (by linarith) hR hs (x, y) (len2_nonneg _)
  rw [zero_mul, add_zero] at this
  exact this.trans (sieReach_le q Rein hq hq1 hR)

/-! ### Summary -/

/-- What holds of the claim: everything but the potential of the EPL lens at slope 2 and the SIE at axis ratio 0. -/
theorem C135_partial :
    (∀ (x0 y0 q phi Rein t : ℝ) (N : ℕ) (x y : ℝ), 0 ≤ q → q ≤ 1 → 0 ≤ t → t ≤ 2 → 0 ≤ Rein → 2 ≤ N →
      OffAxis x0 y0 phi x y →
      (eplClassDeflectionOpt x0 y0 q phi Rein t N none 0 x y).isSome ∧
      (t < 2 → (eplPotentialOpt x0 y0 q phi Rein t N none x y).isSome) ∧
      eplConvergenceOpt x0 y0 q phi Rein t 0 x y = some (eplConvergence x0 y0 q phi Rein t 0 x y)) ∧
    (∀ (x0 y0 q phi Rein s x y : ℝ), 0 ≤ q → q ≤ 1 → 0 ≤ Rein → 0 ≤ s → OffAxis x0 y0 phi x y →
      (0 < q → (sieDeflectionOpt x0 y0 q phi Rein s x y).isSome) ∧
      sieConvergenceOpt x0 y0 q phi Rein s x y = some (sieConvergence x0 y0 q phi Rein s x y)) := by
  have pos : ∀ {x0 y0 phi x y : ℝ}, OffAxis x0 y0 phi x y → 0 < ((y - y0) * cos phi - (x - x0) * sin phi) ^ 2 := by
    intro x0 y0 phi x y h
    have := pow_pos (abs_pos.2 h) 2
    rwa [sq_abs] at this
  refine ⟨fun x0 y0 q phi Rein t N x y hq hq1 ht ht2 hR hN h => ⟨?_, ?_, ?_⟩,
    fun x0 y0 q phi Rein s x y hq hq1 hR hs h => ⟨?_, ?_⟩⟩
  · simp only [eplClassDeflectionOpt, eplDeflection_ok x0 y0 q phi Rein t N none (by omega) (Or.inl rfl)]
    rfl
  · intro ht'
    simp only [eplPotentialOpt, eplDeflection_ok x0 y0 q phi Rein t N none (by omega) (Or.inl rfl), Except.toOption,
      Option.bind_eq_bind, Option.bind_some]
    rw [divOpt_eq (by linarith)]
    rfl
  · have hp := pos h
    simp only [eplConvergenceOpt, eplConvergence, translateRotate]
    generalize (x - x0) * cos phi + (y - y0) * sin phi = X
    generalize (y - y0) * cos phi - (x - x0) * sin phi = Y at hp
    have h1 : 0 < q ^ 2 * X ^ 2 + Y ^ 2 + 0 ^ 2 := by positivity
    have hb : 0 ≤ Rein * √q / √(q ^ 2 * X ^ 2 + Y ^ 2 + 0 ^ 2) := by positivity
    rw [sqrtOpt_eq h1.le, sqrtOpt_eq hq]
    simp only [Option.bind_eq_bind, Option.bind_some]
    rw [divOpt_eq (sqrt_pos.2 h1).ne']
    simp only [Option.bind_some]
    have : powOpt (Rein * √q / √(q ^ 2 * X ^ 2 + Y ^ 2 + 0 ^ 2)) t =
        some ((Rein * √q / √(q ^ 2 * X ^ 2 + Y ^ 2 + 0 ^ 2)) ^ t) := by
      rw [powOpt, if_pos]
      rcases hb.lt_or_eq with hlt | heq
      · exact Or.inl hlt
      · exact Or.inr ⟨heq.symm, ht⟩
    rw [this]
    rfl
  · intro hq0
    have hne : (x, y) ≠ (x0, y0) := by
      rintro ⟨⟩
      exact h (by simp)
    rw [sieDeflectionOpt_eq hq0 hq1 hs (Or.inr hne)]
    rfl
  · have hp := pos h
    simp only [sieConvergenceOpt, sieConvergence, translateRotate]
    generalize (x - x0) * cos phi + (y - y0) * sin phi = X
    generalize (y - y0) * cos phi - (x - x0) * sin phi = Y at hp
    have h1 : 0 < q ^ 2 * (X ^ 2 + s ^ 2) + Y ^ 2 := by positivity
    rw [sqrtOpt_eq h1.le, sqrtOpt_eq hq]
    simp only [Option.bind_eq_bind, Option.bind_some]
    rw [divOpt_eq (sqrt_pos.2 h1).ne']

/-- The full claim is false. -/
theorem C135_fails : ¬ C135_statement := by
  rintro ⟨-, h⟩
  have := (h 0 0 0 0 1 0 1 1 le_rfl zero_le_one zero_le_one le_rfl (by simp [OffAxis])).1
  rw [C135_fails_sie_line] at this
  simp at this

/-! ### Concrete instances -/

/-- Slope 0, axis ratio 1/3, at `(1, 1)`. -/
example : eplDeflection 0 0 (1 / 3) 0 7 0 18 none 1 1 = .ok (1 / 2, 3 / 2) := by
  rw [(C135_sheet 0 0 (1 / 3) 0 7 18 none (by norm_num) (by norm_num) (Or.inl rfl) 1 1).1]
  norm_num [sheetDeflection, shearDeflection, translateRotate, qphiToE1e2]

/-- Slope 2 with the default number of terms: relative error below 1e-8 for axis ratio 1/2. -/
example : ((1 - 1 / 2 : ℝ) / (1 + 1 / 2)) ^ 18 < 1e-8 := by norm_num

example := C135_point 0 0 (1 / 2) 1 2 18 none (by norm_num) (by norm_num) (by norm_num) (Or.inl rfl) 1 3 (by simp)

example := C135_potential_infinite 0 0 (1 / 2) 1 2 18 none (by norm_num) (by norm_num) (by norm_num) (by norm_num)
  (Or.inl rfl) 1 3 (by simp)

example := C135_potential_differences 0 0 1 2 18 none (by norm_num) (by norm_num) (Or.inl rfl) 1 3 2 5 (by simp) (by simp)

example := C135_line_limit 0 0 0 2 1 18 none (by norm_num) (by norm_num) (Or.inl rfl) 1 3 (by simp [OffAxis])

example := C135_sie_limit 0 0 (1 / 10) 0 2 0 1 3 (by norm_num) (by norm_num) (by norm_num) le_rfl (by simp)

example : sieDeflectionOpt 0 0 (e1e2ToQ 1 0) (e1e2ToPhi 1 0) 1 0 2 3 = none :=
  C135_fails_sie_e1e2 0 0 1 0 1 0 2 3 (by norm_num)

end Caustics
