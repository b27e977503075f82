import Mathlib.Analysis.Calculus.Deriv.Slope
import Mathlib.Analysis.Calculus.Deriv.Inverse
import Mathlib.Topology.Order.IntermediateValue
import Mathlib.Topology.Algebra.Order.Field
import Mathlib.Data.Sign.Basic
import Mathlib.Algebra.Order.BigOperators.Group.Finset
import Mathlib.Analysis.Calculus.MeanValue

/-! Counting the zeros of a function on an interval by the signs of its derivative. -/

open Filter Topology Set

namespace Caustics

theorem sign_const_of_ne {f : ℝ → ℝ} {u v : ℝ} (huv : u ≤ v) (hc : ContinuousOn f (Icc u v)) (h0 : ∀ t ∈ Icc u v, f t ≠ 0) :
    SignType.sign (f u) = SignType.sign (f v) := by
  rcases lt_or_gt_of_ne (h0 u (left_mem_Icc.2 huv)) with hu | hu <;>
    rcases lt_or_gt_of_ne (h0 v (right_mem_Icc.2 huv)) with hv | hv
  · rw [sign_neg hu, sign_neg hv]
  · obtain ⟨t, ht, h⟩ := intermediate_value_Icc huv hc ⟨hu.le, hv.le⟩
    exact absurd h (h0 t ht)
  · obtain ⟨t, ht, h⟩ := intermediate_value_Icc' huv hc ⟨hv.le, hu.le⟩
    exact absurd h (h0 t ht)
  · rw [sign_pos hu, sign_pos hv]

/-- Close to a simple zero the sign is that of the derivative on the right and the opposite on the left. -/
theorem sign_near_zero {f : ℝ → ℝ} {f' z : ℝ} (hd : HasDerivAt f f' z) (hz : f z = 0) (hf : f' ≠ 0) :
    (∀ᶠ t in 𝓝[>] z, SignType.sign (f t) = SignType.sign f') ∧ (∀ᶠ t in 𝓝[<] z, SignType.sign (f t) = -SignType.sign f') := by
  have hs := (hasDerivAt_iff_tendsto_slope.1 hd)
  have hev : ∀ᶠ t in 𝓝[≠] z, SignType.sign (slope f z t) = SignType.sign f' := by
    rcases lt_or_gt_of_ne hf with h | h
    · filter_upwards [hs.eventually (eventually_lt_nhds h)] with t ht
      rw [sign_neg ht, sign_neg h]
    · filter_upwards [hs.eventually (eventually_gt_nhds h)] with t ht
      rw [sign_pos ht, sign_pos h]
  have hval : ∀ t, t ≠ z → f t = (t - z) * slope f z t := by
    intro t ht
    rw [slope_def_field, hz, sub_zero, mul_div_cancel₀ _ (sub_ne_zero.2 ht)]
  constructor
  · filter_upwards [hev.filter_mono (nhdsWithin_mono z fun t (ht : z < t) => ht.ne'), self_mem_nhdsWithin] with t h1 h2
    have h2' : z < t := h2
    rw [hval t h2'.ne', sign_mul, h1, sign_pos (sub_pos.2 h2'), one_mul]
  · filter_upwards [hev.filter_mono (nhdsWithin_mono z fun t (ht : t < z) => ht.ne), self_mem_nhdsWithin] with t h1 h2
    have h2' : t < z := h2
    rw [hval t h2'.ne, sign_mul, h1, sign_neg (sub_neg.2 h2'), neg_one_mul]

/-- The signs of the derivative at the zeros between two points add up to half the change of the sign. -/
theorem sum_sign_zeros {f f' : ℝ → ℝ} (n : ℕ) : ∀ (Z : Finset ℝ) (u v : ℝ), Z.card = n → u ≤ v → ContinuousOn f (Icc u v) →
    f u ≠ 0 → f v ≠ 0 → (∀ t, t ∈ Z ↔ t ∈ Ioo u v ∧ f t = 0) → (∀ t ∈ Z, HasDerivAt f (f' t) t ∧ f' t ≠ 0) →
    2 * ∑ t ∈ Z, (SignType.sign (f' t) : ℤ) = (SignType.sign (f v) : ℤ) - (SignType.sign (f u) : ℤ) := by
  induction n with
  | zero =>
    intro Z u v hn huv hc hu hv hZ _
    obtain rfl := Finset.card_eq_zero.1 hn
    have : SignType.sign (f u) = SignType.sign (f v) := by
      refine sign_const_of_ne huv hc fun t ht h0 => ?_
      rcases eq_or_lt_of_le ht.1 with h | h
      · exact hu (h ▸ h0)
      · rcases eq_or_lt_of_le ht.2 with h' | h'
        · exact hv (h' ▸ h0)
        · exact absurd ((hZ t).2 ⟨⟨h, h'⟩, h0⟩) (by simp)
    simp [this]
  | succ n ih =>
    intro Z u v hn huv hc hu hv hZ hd
    have hne : Z.Nonempty := Finset.card_pos.1 (by omega)
    set z := Z.min' hne with hzdef
    have hzZ : z ∈ Z := Z.min'_mem hne
    obtain ⟨hzI, hz0⟩ := (hZ z).1 hzZ
    obtain ⟨hdz, hnz⟩ := hd z hzZ
    obtain ⟨hr, hl⟩ := sign_near_zero hdz hz0 hnz
    -- a point to the left, after `u`
    have hsu : SignType.sign (f u) = -SignType.sign (f' z) := by
      obtain ⟨w, hw, hw1⟩ := (hl.and (Ioo_mem_nhdsLT hzI.1)).exists
      rw [← hw]
      refine sign_const_of_ne hw1.1.le (hc.mono (Icc_subset_Icc_right (hw1.2.le.trans hzI.2.le))) fun t ht h0 => ?_
      rcases eq_or_lt_of_le ht.1 with h | h
      · exact hu (h ▸ h0)
      · have htz : t < z := lt_of_le_of_lt ht.2 hw1.2
        have := Z.min'_le t ((hZ t).2 ⟨⟨h, htz.trans hzI.2⟩, h0⟩)
        exact absurd htz (not_lt.2 this)
    -- a point to the right, before the next zero
    have hnext : ∀ᶠ t in 𝓝[>] z, ∀ y ∈ Z.erase z, t < y := by
      rw [Filter.eventually_all_finset]
      intro y hy
      have hzy : z < y := lt_of_le_of_ne (Z.min'_le y (Finset.mem_of_mem_erase hy)) (Finset.ne_of_mem_erase hy).symm
      exact (Ioo_mem_nhdsGT hzy : _) |> fun h => Filter.mem_of_superset h fun t ht => ht.2
    obtain ⟨w, ⟨hw, hwn⟩, hwI⟩ := ((hr.and hnext).and (Ioo_mem_nhdsGT hzI.2)).exists
    have hfw : f w ≠ 0 := by
      intro h
      rw [h, sign_zero] at hw
      exact hnz (sign_eq_zero_iff.1 hw.symm)
    have hrec := ih (Z.erase z) w v (by rw [Finset.card_erase_of_mem hzZ, hn]; rfl) hwI.2.le
      (hc.mono (Icc_subset_Icc_left (hzI.1.le.trans hwI.1.le))) hfw hv
      (by
        intro t
        constructor
        · intro ht
          have h1 := (hZ t).1 (Finset.mem_of_mem_erase ht)
          exact ⟨⟨hwn t ht, h1.1.2⟩, h1.2⟩
        · rintro ⟨h1, h2⟩
          refine Finset.mem_erase.2 ⟨(hwI.1.trans h1.1).ne', (hZ t).2 ⟨⟨hzI.1.trans (hwI.1.trans h1.1), h1.2⟩, h2⟩⟩)
      (fun t ht => hd t (Finset.mem_of_mem_erase ht))
    rw [← Finset.add_sum_erase Z _ hzZ, mul_add, hrec, hw, hsu]
    have : ((-SignType.sign (f' z) : SignType) : ℤ) = -((SignType.sign (f' z) : SignType) : ℤ) := by
      cases SignType.sign (f' z) <;> rfl
    rw [this]
    ring

/-- Zeros with non-zero derivative in a compact interval are finitely many. -/
theorem finite_simple_zeros {f f' : ℝ → ℝ} {u v : ℝ} (hc : ContinuousOn f (Icc u v))
    (hd : ∀ t ∈ Icc u v, f t = 0 → HasDerivAt f (f' t) t ∧ f' t ≠ 0) : {t | t ∈ Icc u v ∧ f t = 0}.Finite := by
  by_contra hinf
  have hinf' : {t | t ∈ Icc u v ∧ f t = 0}.Infinite := hinf
  obtain ⟨z, hzK, hz⟩ := hinf'.exists_accPt_of_subset_isCompact isCompact_Icc fun t ht => ht.1
  have hz0 : f z = 0 := by
    have hcl : IsClosed {t | t ∈ Icc u v ∧ f t = 0} := by
      have := hc.preimage_isClosed_of_isClosed isClosed_Icc (isClosed_singleton (x := (0 : ℝ)))
      exact this
    exact (isClosed_iff_clusterPt.1 hcl z hz.clusterPt).2
  obtain ⟨h1, h2⟩ := hd z hzK hz0
  have hev := h1.eventually_ne h2 (c := 0)
  rw [accPt_iff_frequently_nhdsNE] at hz
  obtain ⟨t, ht1, ht2⟩ := (hz.and_eventually hev).exists
  exact ht2 ht1.2

theorem card_odd_of_sum {Z : Finset ℝ} {s : ℝ → ℤ} (hs : ∀ t ∈ Z, s t = 1 ∨ s t = -1) (h : Odd (∑ t ∈ Z, s t)) : Odd Z.card := by
  have : (∑ t ∈ Z, s t - Z.card) % 2 = 0 := by
    rw [Finset.card_eq_sum_ones, Nat.cast_sum, ← Finset.sum_sub_distrib]
    refine Int.emod_eq_zero_of_dvd (Finset.dvd_sum fun t ht => ?_)
    rcases hs t ht with h | h <;> rw [h] <;> norm_num
  rw [Int.odd_iff] at h
  rw [Nat.odd_iff]
  omega

end Caustics
