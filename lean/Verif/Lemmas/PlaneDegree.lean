import Verif.Lemmas.WindingSum
import Mathlib.Topology.Compactness.Compact
import Mathlib.Data.Int.Order.Basic
import Mathlib.Data.Sign.Basic

/-!
Zeros of a plane map, counted with their orientation.
-/

namespace Caustics

open ComplexConjugate Filter Topology Complex MeasureTheory

/-- The determinant of the derivative. -/
noncomputable def planeDet (f : ℂ → ℂ) (z : ℂ) : ℝ := (conj (fderiv ℝ f z 1) * fderiv ℝ f z I).im

variable {f : ℂ → ℂ} {Z : Finset ℂ} {k : ℂ → ℤ} {A B : ℂ}

theorem real_linear (D : ℂ →L[ℝ] ℂ) (w : ℂ) :
    D w = (D 1 - I * D I) / 2 * w + (D 1 + I * D I) / 2 * conj w := by
  have h : D w = (w.re : ℂ) * D 1 + (w.im : ℂ) * D I := by
    have e : w = w.re • (1 : ℂ) + w.im • I := by
      rw [real_smul, real_smul, mul_one]
      exact (re_add_im w).symm
    conv_lhs => rw [e, map_add, map_smul, map_smul, real_smul, real_smul]
  rw [h]
  have h1 := re_add_im w
  have h2 : conj w = w.re - w.im * I := by
    refine Complex.ext ?_ ?_ <;> simp
  rw [h2]
  generalize (w.re : ℂ) = x at *
  generalize (w.im : ℂ) = y at *
  rw [← h1]
  linear_combination (y * D I) * I_sq

theorem linear_det (u v : ℂ) : ‖(u - I * v) / 2‖ ^ 2 - ‖(u + I * v) / 2‖ ^ 2 = (conj u * v).im := by
  rw [← normSq_eq_norm_sq, ← normSq_eq_norm_sq, normSq_apply, normSq_apply]
  simp
  ring

theorem regular_zero_det {p : ℂ} (hf : ContDiffAt ℝ 1 f p) (h0 : f p = 0) (hreg : planeDet f p ≠ 0) :
    (∀ᶠ z in 𝓝[≠] p, Good f z) ∧ HasIndex f p (SignType.sign (planeDet f p) : ℤ) := by
  have hd := linear_det (fderiv ℝ f p 1) (fderiv ℝ f p I)
  set α := (fderiv ℝ f p 1 - I * fderiv ℝ f p I) / 2 with hα
  set β := (fderiv ℝ f p 1 + I * fderiv ℝ f p I) / 2 with hβ
  have hd' : ‖α‖ ^ 2 - ‖β‖ ^ 2 = planeDet f p := hd
  have hne : ‖α‖ ≠ ‖β‖ := fun h => hreg (by rw [← hd', h, sub_self])
  have := regular_zero hf h0 (real_linear (fderiv ℝ f p)) hne
  refine ⟨this.1, ?_⟩
  have e : (SignType.sign (planeDet f p) : ℤ) = if ‖β‖ < ‖α‖ then 1 else -1 := by
    rcases lt_or_gt_of_ne hne with h | h
    · rw [if_neg (not_lt.2 h.le), sign_neg]
      · rfl
      · nlinarith [norm_nonneg α, norm_nonneg β]
    · rw [if_pos h, sign_pos]
      · rfl
      · nlinarith [norm_nonneg α, norm_nonneg β]
  rw [e]
  exact this.2

theorem zeros_finite (hs : ∀ z ∉ Z, ContDiffAt ℝ 1 f z) (hz : ∀ p ∈ Z, ∀ᶠ z in 𝓝[≠] p, f z ≠ 0)
    (hreg : ∀ z ∉ Z, f z = 0 → planeDet f z ≠ 0) {ρ : ℝ} (hfar : ∀ z, ρ ≤ ‖z‖ → f z ≠ 0) :
    {z | z ∉ Z ∧ f z = 0}.Finite := by
  by_contra hinf
  have hsub : {z | z ∉ Z ∧ f z = 0} ⊆ Metric.closedBall (0 : ℂ) ρ := by
    rintro z ⟨-, h0⟩
    rw [mem_closedBall_zero_iff]
    by_contra h
    exact hfar z (not_le.1 h).le h0
  obtain ⟨x, -, hx⟩ := Set.Infinite.exists_accPt_of_subset_isCompact hinf (isCompact_closedBall 0 ρ) hsub
  have hfr : ∃ᶠ z in 𝓝[≠] x, z ∉ Z ∧ f z = 0 := accPt_iff_frequently_nhdsNE.1 hx
  have hev : ∀ᶠ z in 𝓝[≠] x, f z ≠ 0 := by
    by_cases hxZ : x ∈ Z
    · exact hz x hxZ
    · have hc : ContinuousAt f x := (hs x hxZ).continuousAt
      by_cases h0 : f x = 0
      · exact (regular_zero_det (hs x hxZ) h0 (hreg x hxZ h0)).1.mono fun z h => h.2
      · exact (hc.eventually_ne h0).filter_mono nhdsWithin_le_nhds
  obtain ⟨z, h1, h2⟩ := (hfr.and_eventually hev).exists
  exact h2 h1.2

theorem around_far {a b c d : ℝ} (ha : a < 0) (hb : 0 < b) (hc : c < 0) (hd : 0 < d) (hAB : ‖A‖ ≠ ‖B‖) :
    around (fun z => A * z + B * conj z) a b c d = 2 * Real.pi * I * (if ‖B‖ < ‖A‖ then 1 else -1 : ℤ) := by
  have hcd : ∀ z, ContDiffAt ℝ 1 (fun z => A * z + B * conj z) z := fun z =>
    (contDiffAt_const.mul contDiffAt_id).add
      (contDiffAt_const.mul (Complex.conjCLE : ℂ →L[ℝ] ℂ).contDiff.contDiffAt)
  have hne : ∀ z : ℂ, z ≠ 0 → A * z + B * conj z ≠ 0 := by
    intro z hz h
    have h1 : ‖A * z‖ = ‖B * conj z‖ := by rw [eq_neg_of_add_eq_zero_left h, norm_neg]
    rw [norm_mul, norm_mul, norm_conj] at h1
    exact hAB (mul_right_cancel₀ (norm_ne_zero_iff.2 hz) h1)
  have h0 : ∀ z : ℂ, z.re ∈ Set.Icc a b → z.im ∈ Set.Icc c d → (z.re = a ∨ z.re = b ∨ z.im = c ∨ z.im = d) → z ≠ 0 := by
    rintro z - - he rfl
    simp only [zero_re, zero_im] at he
    rcases he with h | h | h | h <;> linarith
  have hg := goodRect_of (f := fun z => A * z + B * conj z) (p := fun z => z ≠ 0) (fun z hz => ⟨hcd z, hne z hz⟩)
    (by linarith) (by linarith) h0
  rcases lt_or_gt_of_ne hAB with h | h
  · have hB : B ≠ 0 := norm_pos_iff.1 ((norm_nonneg _).trans_lt h)
    have hg2 := goodRect_of (f := fun z => B * conj (z - 0)) (p := fun z => z ≠ 0)
      (fun z hz => good_antilinear hB hz) (by linarith) (by linarith) h0
    rw [around_near hg hg2, around_antilinear hB (by simpa) (by simpa) (by simpa) (by simpa), if_neg (not_lt.2 h.le)]
    · push_cast
      ring
    · intro z h1 h2 h3
      rw [sub_zero, add_sub_cancel_right, norm_mul, norm_mul, norm_conj]
      exact mul_lt_mul_of_pos_right h (norm_pos_iff.2 (h0 z h1 h2 h3))
  · have hA : A ≠ 0 := norm_pos_iff.1 ((norm_nonneg _).trans_lt h)
    have hg2 := goodRect_of (f := fun z => A * (z - 0)) (p := fun z => z ≠ 0)
      (fun z hz => good_linear hA hz) (by linarith) (by linarith) h0
    rw [around_near hg hg2, around_linear hA (by simpa) (by simpa) (by simpa) (by simpa), if_pos h]
    · push_cast
      ring
    · intro z h1 h2 h3
      rw [sub_zero, add_sub_cancel_left, norm_mul, norm_mul, norm_conj]
      exact mul_lt_mul_of_pos_right h (norm_pos_iff.2 (h0 z h1 h2 h3))

/-- A map that is linear far away: the zeros with their orientations and the indices of the special points add up to the
orientation of the linear map. -/
theorem degree_count (hs : ∀ z ∉ Z, ContDiffAt ℝ 1 f z) (hz : ∀ p ∈ Z, ∀ᶠ z in 𝓝[≠] p, f z ≠ 0)
    (hk : ∀ p ∈ Z, HasIndex f p (k p)) (hreg : ∀ z ∉ Z, f z = 0 → planeDet f z ≠ 0) (hAB : ‖A‖ ≠ ‖B‖) {ρ : ℝ}
    (hfar : ∀ z, ρ ≤ ‖z‖ → ‖f z - (A * z + B * conj z)‖ < ‖A * z + B * conj z‖) :
    ∃ hfin : {z | z ∉ Z ∧ f z = 0}.Finite,
      ∑ z ∈ hfin.toFinset, (SignType.sign (planeDet f z) : ℤ) + ∑ p ∈ Z, k p = if ‖B‖ < ‖A‖ then 1 else -1 := by
  classical
  have hfar0 : ∀ z, ρ ≤ ‖z‖ → f z ≠ 0 := by
    intro z h1 h2
    have := hfar z h1
    rw [h2, zero_sub, norm_neg] at this
    exact lt_irrefl _ this
  have hfin := zeros_finite hs hz hreg hfar0
  refine ⟨hfin, ?_⟩
  set Y := hfin.toFinset with hY
  have hdisj : Disjoint Y Z := by
    rw [Finset.disjoint_left]
    intro z hz
    exact (hfin.mem_toFinset.1 hz).1
  set k' : ℂ → ℤ := fun z => if z ∈ Z then k z else (SignType.sign (planeDet f z) : ℤ) with hk'
  have hg : ∀ z ∉ Y ∪ Z, Good f z := by
    intro z hz
    rw [Finset.mem_union, not_or] at hz
    exact ⟨hs z hz.2, fun h => hz.1 (hfin.mem_toFinset.2 ⟨hz.2, h⟩)⟩
  have hidx : ∀ p ∈ Y ∪ Z, HasIndex f p (k' p) := by
    intro p hp
    by_cases hpZ : p ∈ Z
    · simp only [hk', if_pos hpZ]
      exact hk p hpZ
    · simp only [hk', if_neg hpZ]
      have := (Finset.mem_union.1 hp).resolve_right hpZ
      have h0 := (hfin.mem_toFinset.1 this).2
      exact (regular_zero_det (hs p hpZ) h0 (hreg p hpZ h0)).2
  obtain ⟨M, hM⟩ : ∃ M : ℝ, 0 < M ∧ ρ ≤ M ∧ ∀ p ∈ Y ∪ Z, ‖p‖ < M := by
    obtain ⟨R, hR⟩ := (Finset.finite_toSet (Y ∪ Z)).isBounded.exists_norm_le
    refine ⟨max (max 1 ρ) (R + 1), ?_, ?_, fun p hp => ?_⟩
    · exact lt_of_lt_of_le one_pos ((le_max_left _ _).trans (le_max_left _ _))
    · exact (le_max_right _ _).trans (le_max_left _ _)
    · exact (hR p hp).trans_lt (lt_of_lt_of_le (lt_add_one R) (le_max_right _ _))
  obtain ⟨hM0, hMρ, hMp⟩ := hM
  have hin : ∀ p ∈ Y ∪ Z, -M < p.re ∧ p.re < M ∧ -M < p.im ∧ p.im < M := by
    intro p hp
    have h1 := abs_lt.1 ((abs_re_le_norm p).trans_lt (hMp p hp))
    have h2 := abs_lt.1 ((abs_im_le_norm p).trans_lt (hMp p hp))
    exact ⟨h1.1, h1.2, h2.1, h2.2⟩
  have hA : Avoids (Y ∪ Z) (-M) M (-M) M := fun p hp => by
    obtain ⟨h1, h2, h3, h4⟩ := hin p hp
    exact ⟨h1.ne', h2.ne, h3.ne', h4.ne⟩
  have hsum := around_sum hg hidx (show -M < M by linarith) (show -M < M by linarith) hA
  have hI : inside (Y ∪ Z) k' (-M) M (-M) M = ∑ z ∈ Y, (SignType.sign (planeDet f z) : ℤ) + ∑ p ∈ Z, k p := by
    rw [inside, Finset.sum_congr rfl fun p hp => if_pos (hin p hp), Finset.sum_union hdisj]
    refine congrArg₂ (· + ·) (Finset.sum_congr rfl fun p hp => ?_) (Finset.sum_congr rfl fun p hp => ?_)
    · simp only [hk', if_neg (Finset.disjoint_left.1 hdisj hp)]
    · simp only [hk', if_pos hp]
  have hedge : ∀ z : ℂ, z.re ∈ Set.Icc (-M) M → z.im ∈ Set.Icc (-M) M →
      (z.re = -M ∨ z.re = M ∨ z.im = -M ∨ z.im = M) → ρ ≤ ‖z‖ := by
    intro z _ _ he
    have h1 := abs_re_le_norm z
    have h2 := abs_im_le_norm z
    rcases he with h | h | h | h
    · rw [h, abs_neg, abs_of_pos hM0] at h1
      linarith
    · rw [h, abs_of_pos hM0] at h1
      linarith
    · rw [h, abs_neg, abs_of_pos hM0] at h2
      linarith
    · rw [h, abs_of_pos hM0] at h2
      linarith
  have hlin := around_far (A := A) (B := B) (show -M < 0 by linarith) hM0 (show -M < 0 by linarith) hM0 hAB
  have hcd : ∀ z, ContDiffAt ℝ 1 (fun z => A * z + B * conj z) z := fun z =>
    (contDiffAt_const.mul contDiffAt_id).add
      (contDiffAt_const.mul (Complex.conjCLE : ℂ →L[ℝ] ℂ).contDiff.contDiffAt)
  rw [around_near (h := fun z => A * z + B * conj z) (avoids_good hg (by linarith) (by linarith) hA)
    (goodRect_of (p := fun z => ρ ≤ ‖z‖) (fun z hz => ⟨hcd z, fun h => by
      have := hfar z hz
      simp only at h
      rw [h, norm_zero] at this
      exact absurd this (not_lt.2 (norm_nonneg _))⟩) (by linarith) (by linarith) hedge)
    fun z h1 h2 h3 => hfar z (hedge z h1 h2 h3), hlin, hI] at hsum
  have h2 := mul_left_cancel₀ (mul_ne_zero (mul_ne_zero two_ne_zero (ofReal_ne_zero.2 Real.pi_ne_zero)) I_ne_zero) hsum
  exact_mod_cast h2.symm

end Caustics
