import Verif.Lemmas.SignCount
import Verif.Lemmas.Images
import Verif.Props.Critical

/-! The images of a circular lens whose deflection is bounded and vanishes at the centre. -/

open Filter Topology Set Real

namespace Caustics

/-- The deflection along a line through the centre, as a function of the signed distance. -/
noncomputable def lineDefl (A : ℝ → ℝ) (t : ℝ) : ℝ := if 0 < t then A t else if t < 0 then -A (-t) else 0

theorem lineDefl_pos {A : ℝ → ℝ} {t : ℝ} (h : 0 < t) : lineDefl A t = A t := if_pos h

theorem lineDefl_neg {A : ℝ → ℝ} {t : ℝ} (h : t < 0) : lineDefl A t = -A (-t) := by
  rw [lineDefl, if_neg h.not_gt, if_pos h]

theorem lineDefl_zero (A : ℝ → ℝ) : lineDefl A 0 = 0 := by simp [lineDefl]

theorem lineDefl_image {A : ℝ → ℝ} {t : ℝ} (h : t ≠ 0) : t * (1 - A |t| / |t|) = t - lineDefl A t := by
  rcases lt_or_gt_of_ne h with h | h
  · rw [lineDefl_neg h, abs_of_neg h]
    have : t ≠ 0 := h.ne
    field_simp
  · rw [lineDefl_pos h, abs_of_pos h]
    field_simp

theorem lineDefl_deriv {A A' : ℝ → ℝ} (hd : ∀ r, 0 < r → HasDerivAt A (A' r) r) {t : ℝ} (h : t ≠ 0) :
    HasDerivAt (lineDefl A) (A' |t|) t := by
  rcases lt_or_gt_of_ne h with h | h
  · have h1 := (hd (-t) (by linarith)).scomp t (hasDerivAt_neg t)
    have h2 := h1.neg
    rw [abs_of_neg h]
    refine (h2.congr_of_eventuallyEq ?_).congr_deriv (by simp)
    filter_upwards [eventually_lt_nhds h] with s hs
    rw [lineDefl_neg hs]; rfl
  · rw [abs_of_pos h]
    refine (hd t h).congr_of_eventuallyEq ?_
    filter_upwards [eventually_gt_nhds h] with s hs
    rw [lineDefl_pos hs]

theorem lineDefl_continuous {A A' : ℝ → ℝ} (hd : ∀ r, 0 < r → HasDerivAt A (A' r) r)
    (h0 : Tendsto A (𝓝[>] 0) (𝓝 0)) : Continuous (lineDefl A) := by
  rw [continuous_iff_continuousAt]
  intro t
  by_cases h : t = 0
  · subst h
    rw [continuousAt_iff_continuous_left'_right']
    constructor
    · have h1 : Tendsto (fun t : ℝ => -A (-t)) (𝓝[<] 0) (𝓝 (-0)) := by
        refine (h0.comp ?_).neg
        have := tendsto_neg_nhdsLT_neg (a := (0 : ℝ))
        simpa using this
      rw [neg_zero] at h1
      rw [ContinuousWithinAt, lineDefl_zero]
      refine h1.congr' ?_
      filter_upwards [self_mem_nhdsWithin] with s hs
      rw [lineDefl_neg hs]
    · rw [ContinuousWithinAt, lineDefl_zero]
      refine h0.congr' ?_
      filter_upwards [self_mem_nhdsWithin] with s hs
      rw [lineDefl_pos hs]
  · exact (lineDefl_deriv hd h).continuousAt

theorem lineDefl_bound {A : ℝ → ℝ} {K : ℝ} (hK : ∀ r, 0 < r → |A r| ≤ K) (t : ℝ) (h : t ≠ 0) : |lineDefl A t| ≤ K := by
  rcases lt_or_gt_of_ne h with h | h
  · rw [lineDefl_neg h, abs_neg]; exact hK _ (by linarith)
  · rw [lineDefl_pos h]; exact hK _ h

/-- The signed distances of the images: finitely many, the signs of `1 - A'` add up to one on the side of
the source and to zero on the other side. -/
theorem line_count {A A' : ℝ → ℝ} {K β : ℝ} (hβ : 0 < β) (hd : ∀ r, 0 < r → HasDerivAt A (A' r) r)
    (h0 : Tendsto A (𝓝[>] 0) (𝓝 0)) (hK : ∀ r, 0 < r → |A r| ≤ K)
    (hreg : ∀ t, t - lineDefl A t = β → A' |t| ≠ 1) :
    ∃ Z : Finset ℝ, (∀ t, t ∈ Z ↔ t - lineDefl A t = β) ∧
      ∑ t ∈ Z with 0 < t, (SignType.sign (1 - A' |t|) : ℤ) = 1 ∧ ∑ t ∈ Z with t < 0, (SignType.sign (1 - A' |t|) : ℤ) = 0 := by
  set f : ℝ → ℝ := fun t => t - lineDefl A t - β with hf
  set T := β + K + 1 with hT
  have hK0 : 0 ≤ K := (abs_nonneg _).trans (hK 1 one_pos)
  have hTpos : 0 < T := by rw [hT]; linarith
  have hc : Continuous f := (continuous_id.sub (lineDefl_continuous hd h0)).sub continuous_const
  have hne : ∀ t, f t = 0 → t ≠ 0 := by
    rintro t ht rfl
    simp only [hf, lineDefl_zero] at ht
    linarith
  have hder : ∀ t, f t = 0 → HasDerivAt f (1 - A' |t|) t ∧ 1 - A' |t| ≠ 0 := by
    intro t ht
    refine ⟨((hasDerivAt_id t).sub (lineDefl_deriv hd (hne t ht))).sub_const β, ?_⟩
    intro h
    exact hreg t (by simp only [hf] at ht; linarith) (by linarith)
  have hrange : ∀ t, f t = 0 → t ∈ Ioo (-T) T := by
    intro t ht
    have h1 := abs_le.1 (lineDefl_bound hK t (hne t ht))
    simp only [hf] at ht
    constructor <;> rw [hT] <;> linarith [h1.1, h1.2]
  have hfin := finite_simple_zeros (f := f) (f' := fun t => 1 - A' |t|) (u := -T) (v := T) hc.continuousOn fun t _ ht => hder t ht
  have hmem : ∀ t, t ∈ hfin.toFinset ↔ f t = 0 := by
    intro t
    rw [Set.Finite.mem_toFinset]
    exact ⟨fun h => h.2, fun h => ⟨Ioo_subset_Icc_self (hrange t h), h⟩⟩
  have hf0 : f 0 = -β := by simp [hf, lineDefl_zero]
  have hfT : 0 < f T := by
    have h1 := abs_le.1 (lineDefl_bound hK T hTpos.ne')
    simp only [hf]
    rw [hT] at *
    linarith [h1.2]
  have hfT' : f (-T) < 0 := by
    have h1 := abs_le.1 (lineDefl_bound hK (-T) (by linarith : -T < 0).ne)
    simp only [hf]
    rw [hT] at *
    linarith [h1.1]
  refine ⟨hfin.toFinset, fun t => by rw [hmem]; simp only [hf]; exact sub_eq_zero, ?_, ?_⟩
  · have := sum_sign_zeros (f := f) (f' := fun t => 1 - A' |t|) _ (hfin.toFinset.filter (0 < ·)) 0 T rfl hTpos.le
      hc.continuousOn (by rw [hf0]; linarith) hfT.ne'
      (fun t => by
        rw [Finset.mem_filter, hmem]
        exact ⟨fun h => ⟨⟨h.2, (hrange t h.1).2⟩, h.1⟩, fun h => ⟨h.2, h.1.1⟩⟩)
      (fun t ht => hder t ((hmem t).1 (Finset.mem_of_mem_filter t ht)))
    rw [sign_pos hfT, hf0, sign_neg (by linarith : -β < 0)] at this
    simp only [SignType.coe_one, SignType.coe_neg_one] at this
    linarith
  · have := sum_sign_zeros (f := f) (f' := fun t => 1 - A' |t|) _ (hfin.toFinset.filter (· < 0)) (-T) 0 rfl (by linarith)
      hc.continuousOn hfT'.ne (by rw [hf0]; linarith)
      (fun t => by
        rw [Finset.mem_filter, hmem]
        exact ⟨fun h => ⟨⟨(hrange t h.1).1, h.2⟩, h.1⟩, fun h => ⟨h.2, h.1.2⟩⟩)
      (fun t ht => hder t ((hmem t).1 (Finset.mem_of_mem_filter t ht)))
    rw [sign_neg hfT', hf0, sign_neg (by linarith : -β < 0)] at this
    simp only [SignType.coe_neg_one, sub_self] at this
    linarith

end Caustics
