import Verif.Props.Images
import Mathlib.Analysis.Calculus.Deriv.MeanValue
import Mathlib.Analysis.SpecialFunctions.Pow.Deriv
import Mathlib.Analysis.SpecialFunctions.Pow.Continuity

/-!
C147: how many images a circular power law makes of a source, and where.
-/

open Real

namespace Caustics

/-- The positions `raytrace` (lenses/base.py:827-863) of a circular `EPL` (lenses/epl.py) maps to the source `(bx, bys)`. -/
def eplImages (x0 y0 phi Rein t : ℝ) (N : ℕ) (cs : Option ℕ) (bx bys : ℝ) : Set (ℝ × ℝ) :=
  {p | ∃ a, eplDeflection x0 y0 1 phi Rein t N cs p.1 p.2 = .ok a ∧ (p.1 - a.1, p.2 - a.2) = (bx, bys)}

/-- The radius of the caustic of a circular power law with slope `t < 1`. -/
noncomputable def eplCaustic (Rein t : ℝ) : ℝ := Rein * ((1 - t) ^ (1 / t) * (t / (1 - t)))

/-! ### The lens equation on a line, in Einstein radii -/

/-- Signed positions along the direction of a source at distance `y`. -/
def eplRoots (t y : ℝ) : Set ℝ := {u | u * (1 - |u| ^ (-t)) = y}

theorem eplRoots_same {t y : ℝ} (ht : 0 < t) (hy : 0 < y) :
    ∃ u, 1 < u ∧ y < u ∧ ∀ v, 0 < v → (v * (1 - |v| ^ (-t)) = y ↔ v = u) := by
  have hc : ContinuousOn (fun v : ℝ => v * (1 - v ^ (-t))) (Set.Icc 1 (max (2 * y) (2 ^ (1 / t)))) := by
    refine continuousOn_id.mul (continuousOn_const.sub (continuousOn_id.rpow_const fun v hv => Or.inl ?_))
    have : (1 : ℝ) ≤ v := hv.1
    exact (show v ≠ 0 by linarith)
  have h2 : (1 : ℝ) ≤ 2 ^ (1 / t) := one_le_rpow one_le_two (by positivity)
  have hM : y ≤ (fun v : ℝ => v * (1 - v ^ (-t))) (max (2 * y) (2 ^ (1 / t))) := by
    have h3 : max (2 * y) ((2 : ℝ) ^ (1 / t)) ^ (-t) ≤ 1 / 2 := by
      refine (rpow_le_rpow_of_nonpos (by positivity) (le_max_right _ _) (by linarith)).trans ?_
      rw [← rpow_mul two_pos.le, show 1 / t * -t = -1 by field_simp, rpow_neg_one]
      norm_num
    have h4 := le_max_left (2 * y) ((2 : ℝ) ^ (1 / t))
    show y ≤ _ * _
    nlinarith
  obtain ⟨u, hu, hu'⟩ := intermediate_value_Icc (h2.trans (le_max_right _ _)) hc
    (show y ∈ Set.Icc _ _ from ⟨by simp [hy.le], hM⟩)
  have hu' : u * (1 - u ^ (-t)) = y := hu'
  have hpos : ∀ v : ℝ, 0 < v → v * (1 - v ^ (-t)) = y → 1 < v := fun v hv h => by
    by_contra hn
    have : 1 ≤ v ^ (-t) := one_le_rpow_of_pos_of_le_one_of_nonpos hv (not_lt.1 hn) (by linarith)
    nlinarith
  have hmono : ∀ v w : ℝ, 1 < v → v < w → v * (1 - v ^ (-t)) < w * (1 - w ^ (-t)) := fun v w hv hw => by
    have h1 : w ^ (-t) < v ^ (-t) := rpow_lt_rpow_of_neg (by linarith) hw (by linarith)
    have h2 : v ^ (-t) < 1 := rpow_lt_one_of_one_lt_of_neg hv (by linarith)
    nlinarith
  have hu1 := hpos u (by linarith [hu.1]) hu'
  refine ⟨u, hu1, ?_, fun v hv => ?_⟩
  · have : 0 < u ^ (-t) := rpow_pos_of_pos (by linarith) _
    nlinarith
  rw [abs_of_pos hv]
  refine ⟨fun h => ?_, fun h => h ▸ hu'⟩
  have hv1 := hpos v hv h
  rcases lt_trichotomy v u with h3 | h3 | h3
  · linarith [hmono v u hv1 h3]
  · exact h3
  · linarith [hmono u v hu1 h3]

/-- On the other side the distance `r` from the centre solves `r^(1-t) - r = y`. -/
theorem eplRoots_other {t y r : ℝ} (hr : 0 < r) :
    (-r) * (1 - |(-r)| ^ (-t)) = y ↔ r ^ (1 - t) - r = y := by
  rw [abs_neg, abs_of_pos hr, rpow_sub hr, rpow_one, rpow_neg hr.le, div_eq_mul_inv]
  constructor <;> intro h <;> linarith

theorem steep_root {t y : ℝ} (ht : 1 < t) (hy : 0 < y) :
    ∃ r, 0 < r ∧ r < 1 ∧ ∀ v, 0 < v → (v ^ (1 - t) - v = y ↔ v = r) := by
  have ht' : 1 - t < 0 := by linarith
  have h1 : 0 < (y + 1) ^ (1 / (1 - t)) := by positivity
  have h2 : (y + 1) ^ (1 / (1 - t)) ≤ 1 := rpow_le_one_of_one_le_of_nonpos (by linarith) (one_div_neg.2 ht').le
  have hc : ContinuousOn (fun v : ℝ => v ^ (1 - t) - v) (Set.Icc ((y + 1) ^ (1 / (1 - t))) 1) := by
    refine (continuousOn_id.rpow_const fun v hv => Or.inl ?_).sub continuousOn_id
    exact (h1.trans_le hv.1).ne'
  obtain ⟨r, hr, hr'⟩ := intermediate_value_Icc' h2 hc (show y ∈ Set.Icc _ _ from ⟨by simp [hy.le], by
    rw [← rpow_mul (by linarith), one_div_mul_cancel ht'.ne, rpow_one]; linarith⟩)
  have hr' : r ^ (1 - t) - r = y := hr'
  have hr0 : 0 < r := h1.trans_le hr.1
  refine ⟨r, hr0, lt_of_le_of_ne hr.2 ?_, fun v hv => ⟨fun h => ?_, fun h => h ▸ hr'⟩⟩
  · rintro rfl
    simp at hr'
    linarith
  have hm : ∀ v w : ℝ, 0 < v → v < w → w ^ (1 - t) - w < v ^ (1 - t) - v := fun v w hv hw => by
    linarith [rpow_lt_rpow_of_neg hv hw ht']
  rcases lt_trichotomy v r with h3 | h3 | h3
  · linarith [hm v r hv h3]
  · exact h3
  · linarith [hm r v hr0 h3]

section shallow
variable {t : ℝ}

theorem turn_pos (h1 : t < 1) : 0 < (1 - t) ^ (1 / t) := rpow_pos_of_pos (by linarith) _

theorem turn_lt_one (h0 : 0 < t) (h1 : t < 1) : (1 - t) ^ (1 / t) < 1 :=
  rpow_lt_one (by linarith) (by linarith) (by positivity)

theorem turn_rpow (h0 : 0 < t) (h1 : t < 1) : ((1 - t) ^ (1 / t)) ^ (-t) = 1 / (1 - t) := by
  rw [← rpow_mul (by linarith), show 1 / t * -t = -1 by field_simp, rpow_neg_one, one_div]

theorem turn_value (h0 : 0 < t) (h1 : t < 1) :
    ((1 - t) ^ (1 / t)) ^ (1 - t) - (1 - t) ^ (1 / t) = (1 - t) ^ (1 / t) * (t / (1 - t)) := by
  have h := turn_rpow h0 h1
  have h2 : 1 - t ≠ 0 := by linarith
  rw [show 1 - t = 1 + -t by ring, rpow_add (by rw [← sub_eq_add_neg]; exact turn_pos h1), rpow_one, ← sub_eq_add_neg, h]
  field_simp
  ring

theorem shallow_deriv {v : ℝ} (hv : 0 < v) :
    HasDerivAt (fun v : ℝ => v ^ (1 - t) - v) ((1 - t) * v ^ (-t) - 1) v := by
  have := (hasDerivAt_rpow_const (x := v) (p := 1 - t) (Or.inl hv.ne')).sub (hasDerivAt_id v)
  refine this.congr_deriv ?_
  rw [show 1 - t - 1 = -t by ring]

theorem shallow_cont (h1 : t < 1) : Continuous fun v : ℝ => v ^ (1 - t) - v :=
  (continuous_id.rpow_const fun _ => Or.inr (by linarith)).sub continuous_id

theorem shallow_up (h0 : 0 < t) (h1 : t < 1) :
    StrictMonoOn (fun v : ℝ => v ^ (1 - t) - v) (Set.Icc 0 ((1 - t) ^ (1 / t))) := by
  refine strictMonoOn_of_deriv_pos (convex_Icc _ _) (shallow_cont h1).continuousOn fun v hv => ?_
  rw [interior_Icc] at hv
  rw [(shallow_deriv hv.1).deriv]
  have := rpow_lt_rpow_of_neg hv.1 hv.2 (neg_lt_zero.2 h0)
  rw [turn_rpow h0 h1, div_lt_iff₀ (by linarith)] at this
  linarith

theorem shallow_down (h0 : 0 < t) (h1 : t < 1) :
    StrictAntiOn (fun v : ℝ => v ^ (1 - t) - v) (Set.Ici ((1 - t) ^ (1 / t))) := by
  refine strictAntiOn_of_deriv_neg (convex_Ici _) (shallow_cont h1).continuousOn fun v hv => ?_
  rw [interior_Ici] at hv
  have hp := turn_pos h1
  rw [(shallow_deriv (hp.trans hv)).deriv]
  have := rpow_lt_rpow_of_neg hp hv (neg_lt_zero.2 h0)
  rw [turn_rpow h0 h1, lt_div_iff₀ (by linarith)] at this
  linarith

theorem shallow_max (h0 : 0 < t) (h1 : t < 1) {v : ℝ} (hv : 0 < v) (hne : v ≠ (1 - t) ^ (1 / t)) :
    v ^ (1 - t) - v < (1 - t) ^ (1 / t) * (t / (1 - t)) := by
  have hp := turn_pos h1
  rw [← turn_value h0 h1]
  rcases lt_or_gt_of_ne hne with h | h
  · exact shallow_up h0 h1 ⟨hv.le, h.le⟩ ⟨hp.le, le_rfl⟩ h
  · exact shallow_down h0 h1 (Set.mem_Ici.2 le_rfl) (Set.mem_Ici.2 h.le) h

/-- Below the maximum there is one solution on each side of it. -/
theorem shallow_roots (h0 : 0 < t) (h1 : t < 1) {y : ℝ} (hy : 0 < y) (hlt : y < (1 - t) ^ (1 / t) * (t / (1 - t))) :
    ∃ r s, 0 < r ∧ r < (1 - t) ^ (1 / t) ∧ (1 - t) ^ (1 / t) < s ∧ s < 1 ∧
      ∀ v, 0 < v → (v ^ (1 - t) - v = y ↔ v = r ∨ v = s) := by
  have hp := turn_pos h1
  have h2 := turn_lt_one h0 h1
  have hz : (0 : ℝ) ^ (1 - t) = 0 := zero_rpow (by linarith)
  rw [← turn_value h0 h1] at hlt
  obtain ⟨r, hr, hr'⟩ := intermediate_value_Ioo hp.le (shallow_cont h1).continuousOn
    (show y ∈ Set.Ioo _ _ from ⟨by simp only [hz, sub_zero]; exact hy, hlt⟩)
  obtain ⟨s, hs, hs'⟩ := intermediate_value_Ioo' h2.le (shallow_cont h1).continuousOn
    (show y ∈ Set.Ioo _ _ from ⟨by simp only [one_rpow, sub_self]; exact hy, hlt⟩)
  refine ⟨r, s, hr.1, hr.2, hs.1, hs.2, fun v hv => ⟨fun h => ?_, ?_⟩⟩
  · rcases le_total v ((1 - t) ^ (1 / t)) with h3 | h3
    · exact Or.inl ((shallow_up h0 h1).injOn ⟨hv.le, h3⟩ ⟨hr.1.le, hr.2.le⟩ (h.trans hr'.symm))
    · exact Or.inr ((shallow_down h0 h1).injOn (Set.mem_Ici.2 h3) (Set.mem_Ici.2 hs.1.le) (h.trans hs'.symm))
  · rintro (rfl | rfl)
    · exact hr'
    · exact hs'

end shallow

theorem mem_eplRoots {t y : ℝ} (hy : 0 < y) {u : ℝ} :
    u ∈ eplRoots t y ↔ (0 < u ∧ u * (1 - |u| ^ (-t)) = y) ∨ (0 < -u ∧ (-u) ^ (1 - t) - (-u) = y) := by
  rcases lt_trichotomy u 0 with h | h | h
  · rw [← eplRoots_other (neg_pos.2 h), neg_neg]
    simp [eplRoots, h, not_lt.2 h.le]
  · subst h
    simp [eplRoots, hy.ne]
  · simp [eplRoots, h, not_lt.2 h.le]

/-! ### From the line to the sky -/

theorem eplImages_eq (x0 y0 phi Rein t : ℝ) (N : ℕ) (cs : Option ℕ) (hN : 1 ≤ N) (hcs : ChunkOk N cs) (hR : 0 < Rein)
    (bx bys : ℝ) (hb : (bx, bys) ≠ (x0, y0)) :
    let β := √((bx - x0) ^ 2 + (bys - y0) ^ 2)
    eplImages x0 y0 phi Rein t N cs bx bys
      = (fun u => (x0 + u * Rein / β * (bx - x0), y0 + u * Rein / β * (bys - y0))) '' eplRoots t (β / Rein) := by
  intro β
  have hb' := sub_ne_zero_pair hb
  have hβ : 0 < β := radius_pos hb'
  have hβ2 : β ^ 2 = (bx - x0) ^ 2 + (bys - y0) ^ 2 := radius_sq _ _
  have hrad : ∀ k : ℝ, √((k * (bx - x0)) ^ 2 + (k * (bys - y0)) ^ 2) = |k| * β := fun k => by
    rw [show (k * (bx - x0)) ^ 2 + (k * (bys - y0)) ^ 2 = k ^ 2 * ((bx - x0) ^ 2 + (bys - y0) ^ 2) by ring,
      sqrt_mul (sq_nonneg k), sqrt_sq_eq_abs]
  have hpow : ∀ u : ℝ, (Rein / (|u * Rein / β| * β)) ^ t = |u| ^ (-t) := fun u => by
    rw [abs_div, abs_mul, abs_of_pos hR, abs_of_pos hβ, div_mul_cancel₀ _ hβ.ne', rpow_neg (abs_nonneg u),
      ← inv_rpow (abs_nonneg u)]
    congr 1
    rw [mul_comm, div_mul_eq_div_div, div_self hR.ne', one_div]
  ext ⟨x, y⟩
  simp only [eplImages, Set.mem_ofPred_eq, Set.mem_image, epl_circular x0 y0 phi Rein t N cs hN hcs, Except.ok.injEq,
    exists_eq_left', Prod.mk.injEq]
  constructor
  · rintro ⟨h1, h2⟩
    have e1 : (1 - (Rein / √((x - x0) ^ 2 + (y - y0) ^ 2)) ^ t) * (x - x0) = bx - x0 := by linarith
    have e2 : (1 - (Rein / √((x - x0) ^ 2 + (y - y0) ^ 2)) ^ t) * (y - y0) = bys - y0 := by linarith
    obtain ⟨l, hl⟩ : ∃ l, l = 1 - (Rein / √((x - x0) ^ 2 + (y - y0) ^ 2)) ^ t := ⟨_, rfl⟩
    rw [← hl] at e1 e2
    have hl0 : l ≠ 0 := by
      rintro rfl
      rcases hb' with h | h
      · exact h (by linarith)
      · exact h (by linarith)
    have f1 : x - x0 = 1 / l * (bx - x0) := by rw [← e1]; field_simp
    have f2 : y - y0 = 1 / l * (bys - y0) := by rw [← e2]; field_simp
    have hk : β / (l * Rein) * Rein / β = 1 / l := by field_simp
    refine ⟨β / (l * Rein), ?_, by rw [hk]; linarith, by rw [hk]; linarith⟩
    show _ * (1 - _) = _
    rw [← hpow, hk, ← hrad, ← f1, ← f2, ← hl]
    field_simp
  · rintro ⟨u, hu, h1, h2⟩
    have hu : u * (1 - |u| ^ (-t)) = β / Rein := hu
    rw [← hpow, ← hrad] at hu
    have g1 : x - x0 = u * Rein / β * (bx - x0) := by linarith
    have g2 : y - y0 = u * Rein / β * (bys - y0) := by linarith
    rw [← g1, ← g2] at hu
    have hw : u * Rein / β * (1 - (Rein / √((x - x0) ^ 2 + (y - y0) ^ 2)) ^ t) = 1 := by
      have : u * Rein / β * (1 - (Rein / √((x - x0) ^ 2 + (y - y0) ^ 2)) ^ t)
        = u * (1 - (Rein / √((x - x0) ^ 2 + (y - y0) ^ 2)) ^ t) * (Rein / β) := by ring
      rw [this, hu]
      field_simp
    generalize (Rein / √((x - x0) ^ 2 + (y - y0) ^ 2)) ^ t = w at hw
    rw [g1, g2]
    constructor
    · linear_combination (bx - x0) * hw + g1
    · linear_combination (bys - y0) * hw + g2

theorem line_injective {x0 y0 Rein bx bys : ℝ} (hR : 0 < Rein) (hb : (bx, bys) ≠ (x0, y0)) :
    Function.Injective fun u : ℝ => (x0 + u * Rein / √((bx - x0) ^ 2 + (bys - y0) ^ 2) * (bx - x0),
      y0 + u * Rein / √((bx - x0) ^ 2 + (bys - y0) ^ 2) * (bys - y0)) := by
  have hb' := sub_ne_zero_pair hb
  have hβ := radius_pos hb'
  generalize √((bx - x0) ^ 2 + (bys - y0) ^ 2) = β at *
  intro u v h
  simp only [Prod.mk.injEq, add_right_inj] at h
  have hk : u * Rein / β = v * Rein / β := by
    rcases hb' with h0 | h0
    · exact mul_right_cancel₀ h0 h.1
    · exact mul_right_cancel₀ h0 h.2
  exact mul_right_cancel₀ hR.ne' ((div_left_inj' hβ.ne').1 hk)

theorem eplImages_ncard (x0 y0 phi Rein t : ℝ) (N : ℕ) (cs : Option ℕ) (hN : 1 ≤ N) (hcs : ChunkOk N cs) (hR : 0 < Rein)
    (bx bys : ℝ) (hb : (bx, bys) ≠ (x0, y0)) :
    (eplImages x0 y0 phi Rein t N cs bx bys).ncard = (eplRoots t (√((bx - x0) ^ 2 + (bys - y0) ^ 2) / Rein)).ncard := by
  rw [eplImages_eq x0 y0 phi Rein t N cs hN hcs hR bx bys hb, Set.ncard_image_of_injective _ (line_injective hR hb)]

/-! ### C147 -/

/-- A circular power law steeper than isothermal makes two images of every source off its centre; an isothermal one two or
one as the source is inside or outside the Einstein radius; a shallower one three, two or one as it is inside, on or outside
the caustic. -/
theorem C147_count (x0 y0 phi Rein t : ℝ) (N : ℕ) (cs : Option ℕ) (hN : 1 ≤ N) (hcs : ChunkOk N cs) (hR : 0 < Rein)
    (ht : 0 < t) (bx bys : ℝ) (hb : (bx, bys) ≠ (x0, y0)) :
    let β := √((bx - x0) ^ 2 + (bys - y0) ^ 2)
    (eplImages x0 y0 phi Rein t N cs bx bys).ncard =
      if 1 < t then 2
      else if t = 1 then (if β < Rein then 2 else 1)
      else if β < eplCaustic Rein t then 3 else if β = eplCaustic Rein t then 2 else 1 := by
  intro β
  have hβ : 0 < β := radius_pos (sub_ne_zero_pair hb)
  rw [eplImages_ncard x0 y0 phi Rein t N cs hN hcs hR bx bys hb]
  change (eplRoots t (β / Rein)).ncard = _
  have hy : 0 < β / Rein := div_pos hβ hR
  obtain ⟨u, hu1, -, hu⟩ := eplRoots_same ht hy
  by_cases h1 : 1 < t
  · rw [if_pos h1]
    obtain ⟨r, hr0, -, hr⟩ := steep_root h1 hy
    have : eplRoots t (β / Rein) = {u, -r} := by
      ext v
      rw [mem_eplRoots hy, Set.mem_insert_iff, Set.mem_singleton_iff]
      constructor
      · rintro (⟨h, h'⟩ | ⟨h, h'⟩)
        · exact Or.inl ((hu v h).1 h')
        · exact Or.inr (by linarith [(hr _ h).1 h'])
      · rintro (rfl | rfl)
        · exact Or.inl ⟨by linarith, (hu v (by linarith)).2 rfl⟩
        · exact Or.inr (by rw [neg_neg]; exact ⟨hr0, (hr r hr0).2 rfl⟩)
    rw [this, Set.ncard_pair (by linarith)]
  rw [if_neg h1]
  by_cases h2 : t = 1
  · rw [if_pos h2]
    subst h2
    by_cases h3 : β < Rein
    · rw [if_pos h3]
      have hlt : β / Rein < 1 := (div_lt_one hR).2 h3
      have : eplRoots 1 (β / Rein) = {u, -(1 - β / Rein)} := by
        ext v
        rw [mem_eplRoots hy, Set.mem_insert_iff, Set.mem_singleton_iff, sub_self, rpow_zero]
        constructor
        · rintro (⟨h, h'⟩ | ⟨h, h'⟩)
          · exact Or.inl ((hu v h).1 h')
          · exact Or.inr (by linarith)
        · rintro (rfl | rfl)
          · exact Or.inl ⟨by linarith, (hu v (by linarith)).2 rfl⟩
          · exact Or.inr ⟨by linarith, by ring⟩
      rw [this, Set.ncard_pair (by linarith)]
    · rw [if_neg h3]
      have hlt : 1 ≤ β / Rein := (one_le_div hR).2 (not_lt.1 h3)
      have : eplRoots 1 (β / Rein) = {u} := by
        ext v
        rw [mem_eplRoots hy, Set.mem_singleton_iff, sub_self, rpow_zero]
        constructor
        · rintro (⟨h, h'⟩ | ⟨h, h'⟩)
          · exact (hu v h).1 h'
          · linarith
        · rintro rfl
          exact Or.inl ⟨by linarith, (hu v (by linarith)).2 rfl⟩
      rw [this, Set.ncard_singleton]
  rw [if_neg h2]
  have h1' : t < 1 := lt_of_le_of_ne (not_lt.1 h1) h2
  by_cases h3 : β < eplCaustic Rein t
  · rw [if_pos h3]
    obtain ⟨r, s, hr0, hr1, hs1, -, hrs⟩ := shallow_roots ht h1' hy (by
      rw [div_lt_iff₀ hR, mul_comm]; exact h3)
    have : eplRoots t (β / Rein) = {u, -r, -s} := by
      ext v
      rw [mem_eplRoots hy, Set.mem_insert_iff, Set.mem_insert_iff, Set.mem_singleton_iff]
      constructor
      · rintro (⟨h, h'⟩ | ⟨h, h'⟩)
        · exact Or.inl ((hu v h).1 h')
        · rcases (hrs _ h).1 h' with h4 | h4
          · exact Or.inr (Or.inl (by linarith))
          · exact Or.inr (Or.inr (by linarith))
      · rintro (rfl | rfl | rfl)
        · exact Or.inl ⟨by linarith, (hu v (by linarith)).2 rfl⟩
        · exact Or.inr (by rw [neg_neg]; exact ⟨hr0, (hrs r hr0).2 (Or.inl rfl)⟩)
        · exact Or.inr (by rw [neg_neg]; exact ⟨by linarith, (hrs s (by linarith)).2 (Or.inr rfl)⟩)
    rw [this, Set.ncard_eq_three]
    exact ⟨u, -r, -s, by linarith, by linarith, by linarith, rfl⟩
  rw [if_neg h3]
  have hmax := turn_pos h1'
  by_cases h4 : β = eplCaustic Rein t
  · rw [if_pos h4]
    have e : β / Rein = (1 - t) ^ (1 / t) * (t / (1 - t)) := by rw [h4, eplCaustic]; field_simp
    have : eplRoots t (β / Rein) = {u, -(1 - t) ^ (1 / t)} := by
      ext v
      rw [mem_eplRoots hy, Set.mem_insert_iff, Set.mem_singleton_iff]
      constructor
      · rintro (⟨h, h'⟩ | ⟨h, h'⟩)
        · exact Or.inl ((hu v h).1 h')
        · refine Or.inr ?_
          by_contra hne
          have := shallow_max ht h1' h (fun h5 => hne (by linarith))
          linarith
      · rintro (rfl | rfl)
        · exact Or.inl ⟨by linarith, (hu v (by linarith)).2 rfl⟩
        · exact Or.inr (by rw [neg_neg]; exact ⟨hmax, by rw [turn_value ht h1', e]⟩)
    rw [this, Set.ncard_pair (by linarith)]
  · rw [if_neg h4]
    have hgt : (1 - t) ^ (1 / t) * (t / (1 - t)) < β / Rein := by
      rw [lt_div_iff₀ hR, mul_comm]
      exact lt_of_le_of_ne (not_lt.1 h3) (Ne.symm h4)
    have : eplRoots t (β / Rein) = {u} := by
      ext v
      rw [mem_eplRoots hy, Set.mem_singleton_iff]
      constructor
      · rintro (⟨h, h'⟩ | ⟨h, h'⟩)
        · exact (hu v h).1 h'
        · by_cases h5 : -v = (1 - t) ^ (1 / t)
          · rw [h5, turn_value ht h1'] at h'
            linarith
          · linarith [shallow_max ht h1' h h5]
      · rintro rfl
        exact Or.inl ⟨by linarith, (hu v (by linarith)).2 rfl⟩
    rw [this, Set.ncard_singleton]

/-- Where the images are: on the line through the centre and the source, one on the side of the source, outside the Einstein
ring and farther out than the source, the others on the other side, inside the Einstein ring. -/
theorem C147_where (x0 y0 phi Rein t : ℝ) (N : ℕ) (cs : Option ℕ) (hN : 1 ≤ N) (hcs : ChunkOk N cs) (hR : 0 < Rein)
    (ht : 0 < t) (bx bys : ℝ) (hb : (bx, bys) ≠ (x0, y0)) :
    let β := √((bx - x0) ^ 2 + (bys - y0) ^ 2)
    ∃ k, 1 < k ∧ Rein < k * β ∧
      (x0 + k * (bx - x0), y0 + k * (bys - y0)) ∈ eplImages x0 y0 phi Rein t N cs bx bys ∧
      ∀ p ∈ eplImages x0 y0 phi Rein t N cs bx bys, p = (x0 + k * (bx - x0), y0 + k * (bys - y0)) ∨
        ∃ l, 0 < l ∧ l * β < Rein ∧ p = (x0 - l * (bx - x0), y0 - l * (bys - y0)) := by
  intro β
  have hβ : 0 < β := radius_pos (sub_ne_zero_pair hb)
  have hy : 0 < β / Rein := div_pos hβ hR
  obtain ⟨u, hu1, hu2, hu⟩ := eplRoots_same ht hy
  rw [eplImages_eq x0 y0 phi Rein t N cs hN hcs hR bx bys hb]
  change ∃ k, _ ∧ _ ∧ _ ∈ (fun u => (x0 + u * Rein / β * (bx - x0), y0 + u * Rein / β * (bys - y0))) '' eplRoots t (β / Rein) ∧
    ∀ p ∈ (fun u => (x0 + u * Rein / β * (bx - x0), y0 + u * Rein / β * (bys - y0))) '' eplRoots t (β / Rein), _
  refine ⟨u * Rein / β, ?_, ?_, ⟨u, (mem_eplRoots hy).2 (Or.inl ⟨by linarith, (hu u (by linarith)).2 rfl⟩), rfl⟩, ?_⟩
  · rwa [lt_div_iff₀ hβ, one_mul, ← div_lt_iff₀ hR]
  · rw [div_mul_cancel₀ _ hβ.ne']
    nlinarith
  · rintro _ ⟨v, hv, rfl⟩
    rcases (mem_eplRoots hy).1 hv with ⟨h, h'⟩ | ⟨h, h'⟩
    · rw [(hu v h).1 h']
      exact Or.inl rfl
    · have hlt : -v < 1 := by
        by_contra hn
        have : (-v) ^ (1 - t) ≤ (-v) ^ (1 : ℝ) := rpow_le_rpow_of_exponent_le (not_lt.1 hn) (by linarith)
        rw [rpow_one] at this
        linarith
      refine Or.inr ⟨-v * Rein / β, by positivity, ?_, ?_⟩
      · rw [div_mul_cancel₀ _ hβ.ne']
        nlinarith
      · simp only [Prod.mk.injEq]
        constructor <;> ring

/-- The magnification of a circular power law. -/
theorem epl_circular_magnification (x0 y0 phi Rein t : ℝ) (N : ℕ) (cs : Option ℕ) (hN : 1 ≤ N) (hcs : ChunkOk N cs)
    (hR : 0 < Rein) {α : ℝ → ℝ → ℝ × ℝ} (hα : ∀ x y, eplDeflection x0 y0 1 phi Rein t N cs x y = .ok (α x y)) {x y : ℝ}
    (h : (x, y) ≠ (x0, y0)) {M : M22 ℝ}
    (hM : HasJac (fun x y => (x - (α x y).1, y - (α x y).2)) M.a00 M.a01 M.a10 M.a11 x y) :
    let w := (Rein / √((x - x0) ^ 2 + (y - y0) ^ 2)) ^ t
    pixelMagnification M = 1 / |(1 - w) * (1 - (1 - t) * w)| := by
  intro w
  have hr := radius_pos (sub_ne_zero_pair h)
  have hA : ∀ r : ℝ, 0 < r → Rein ^ t * r ^ (1 - t) = (Rein / r) ^ t * r := fun r hr => by
    rw [div_rpow hR.le hr.le, rpow_sub hr, rpow_one]
    ring
  have hd : HasDerivAt (fun r : ℝ => Rein ^ t * r ^ (1 - t)) ((1 - t) * w) (√((x - x0) ^ 2 + (y - y0) ^ 2)) := by
    refine ((hasDerivAt_rpow_const (p := 1 - t) (Or.inl hr.ne')).const_mul (Rein ^ t)).congr_deriv ?_
    rw [show 1 - t - 1 = -t by ring, rpow_neg hr.le, show w = _ from div_rpow hR.le hr.le t]
    ring
  rw [C79_radial (A := fun r => Rein ^ t * r ^ (1 - t)) h hd (fun x y => ?_) hM]
  · simp only [hA _ hr, mul_div_cancel_right₀ _ hr.ne']
    rfl
  · have := hα x y
    rw [epl_circular x0 y0 phi Rein t N cs hN hcs] at this
    rw [← Except.ok.inj this]
    by_cases h0 : x - x0 ≠ 0 ∨ y - y0 ≠ 0
    · have hr := radius_pos h0
      simp only [hA _ hr]
      refine Prod.ext ?_ ?_ <;> simp only <;> field_simp
    · push Not at h0
      simp [h0.1, h0.2]

/-- The image on the side of the source is brighter than the source would be without the lens. -/
theorem C147_bright (x0 y0 phi Rein t : ℝ) (N : ℕ) (cs : Option ℕ) (hN : 1 ≤ N) (hcs : ChunkOk N cs)
    (hR : 0 < Rein) (ht : 0 < t) (ht2 : t < 2) {α : ℝ → ℝ → ℝ × ℝ}
    (hα : ∀ x y, eplDeflection x0 y0 1 phi Rein t N cs x y = .ok (α x y)) {bx bys x y : ℝ} (hb : (bx, bys) ≠ (x0, y0))
    (h : (x, y) ∈ eplImages x0 y0 phi Rein t N cs bx bys) (hs : 0 < (x - x0) * (bx - x0) + (y - y0) * (bys - y0)) {M : M22 ℝ}
    (hM : HasJac (fun x y => (x - (α x y).1, y - (α x y).2)) M.a00 M.a01 M.a10 M.a11 x y) :
    1 < pixelMagnification M := by
  have hb' := sub_ne_zero_pair hb
  have hβ := radius_pos hb'
  have hβ2 := radius_sq (bx - x0) (bys - y0)
  obtain ⟨k, hk1, hk2, -, hk⟩ := C147_where x0 y0 phi Rein t N cs hN hcs hR ht bx bys hb
  rcases hk _ h with e | ⟨l, hl0, -, e⟩
  · rw [Prod.mk.injEq] at e
    have hne : (x, y) ≠ (x0, y0) := by rw [e.1, e.2]; exact line_ne hb (by linarith)
    have hm := epl_circular_magnification x0 y0 phi Rein t N cs hN hcs hR hα hne hM
    have hd : √((x - x0) ^ 2 + (y - y0) ^ 2) = k * √((bx - x0) ^ 2 + (bys - y0) ^ 2) := by
      rw [e.1, e.2, line_dist, abs_of_pos (by linarith)]
    rw [hd] at hm
    have hw1 : (Rein / (k * √((bx - x0) ^ 2 + (bys - y0) ^ 2))) ^ t < 1 :=
      rpow_lt_one (by positivity) ((div_lt_one (by positivity)).2 hk2) ht
    have hw0 : 0 < (Rein / (k * √((bx - x0) ^ 2 + (bys - y0) ^ 2))) ^ t := by positivity
    rw [hm]
    generalize (Rein / (k * √((bx - x0) ^ 2 + (bys - y0) ^ 2))) ^ t = w at *
    have h1 : 0 < (1 - w) * (1 - (1 - t) * w) := mul_pos (by linarith) (by nlinarith)
    rw [abs_of_pos h1]
    refine one_lt_one_div h1 ?_
    rcases le_or_gt t 1 with h2 | h2
    · have : (1 - t) * w ≥ 0 := mul_nonneg (by linarith) hw0.le
      nlinarith
    · nlinarith [mul_pos (sub_pos.2 h2) hw0]
  · rw [Prod.mk.injEq] at e
    rw [e.1, e.2] at hs
    have : 0 < (bx - x0) ^ 2 + (bys - y0) ^ 2 := by rw [← hβ2]; positivity
    nlinarith

/-! ### Instances -/

example : (eplImages 0 0 0 1 (3 / 2) 18 none 5 0).ncard = 2 := by
  rw [C147_count 0 0 0 1 (3 / 2) 18 none (by norm_num) (by simp [ChunkOk]) one_pos (by norm_num) 5 0 (by simp)]
  norm_num

/-- Slope one half: the caustic has radius 1/4, and a source there has its opposite image at distance 1/4. -/
example : eplCaustic 1 (1 / 2) = 1 / 4 := by
  rw [eplCaustic, show (1 : ℝ) / (1 / 2) = (2 : ℕ) by norm_num, rpow_natCast]
  norm_num

example : (eplImages 0 0 0 1 (1 / 2) 18 none (1 / 5) 0).ncard = 3 ∧ (eplImages 0 0 0 1 (1 / 2) 18 none (1 / 4) 0).ncard = 2 ∧
    (eplImages 0 0 0 1 (1 / 2) 18 none 1 0).ncard = 1 := by
  have e : eplCaustic 1 (1 / 2) = 1 / 4 := by
    rw [eplCaustic, show (1 : ℝ) / (1 / 2) = (2 : ℕ) by norm_num, rpow_natCast]
    norm_num
  have h := fun b hb => C147_count 0 0 0 1 (1 / 2) 18 none (by norm_num) (by simp [ChunkOk]) one_pos (by norm_num) b 0 hb
  simp only [e] at h
  refine ⟨(h _ (by simp)).trans ?_, (h _ (by simp)).trans ?_, (h _ (by simp)).trans ?_⟩
  · rw [if_neg (by norm_num), if_neg (by norm_num), if_pos]
    rw [sub_zero, sub_zero, sq 0, mul_zero, add_zero, sqrt_sq (by norm_num)]
    norm_num
  · rw [if_neg (by norm_num), if_neg (by norm_num), sub_zero, sub_zero, sq 0, mul_zero, add_zero, sqrt_sq (by norm_num)]
    norm_num
  · rw [if_neg (by norm_num), if_neg (by norm_num), sub_zero, sub_zero, sq 0, mul_zero, add_zero, sqrt_sq (by norm_num)]
    norm_num

end Caustics
