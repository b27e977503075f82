import Verif.Lemmas.RingBounds
import Mathlib.Analysis.Convex.Deriv
import Mathlib.Analysis.SpecialFunctions.Trigonometric.ArctanDeriv
import Mathlib.Data.Set.Card

/-!
Images of the isothermal ellipsoid without core, in the frame of the lens.  The deflection is constant
along rays from the centre, so on the ray of slope `T` in the first quadrant the image is where a function
of `T` vanishes.  That function is strictly concave.
-/

open Real Set

namespace Caustics

/-- Deflection along the major axis on the ray of slope `T`, without the factor `A`. -/
noncomputable def rayX (q f T : ℝ) : ℝ := arctan (f / √(q ^ 2 + T ^ 2))

/-- Deflection along the minor axis. -/
noncomputable def rayY (q f T : ℝ) : ℝ := artanh (f * T / √(q ^ 2 + T ^ 2))

/-- Vanishes where the deflected source meets the ray of slope `T`. -/
noncomputable def rayH (q f A b1 b2 T : ℝ) : ℝ := b2 + A * rayY q f T - T * (b1 + A * rayX q f T)

variable {q f A b1 b2 T : ℝ}

theorem rayW_pos (hq : 0 < q) (T : ℝ) : 0 < √(q ^ 2 + T ^ 2) := sqrt_pos.2 (by positivity)

theorem ray_sub_one (hq : 0 < q) (hqf : f ^ 2 = 1 - q ^ 2) (T : ℝ) :
    f * T / √(q ^ 2 + T ^ 2) ∈ Ioo (-1 : ℝ) 1 := by
  have hw := rayW_pos hq T
  have hw2 : √(q ^ 2 + T ^ 2) ^ 2 = q ^ 2 + T ^ 2 := sq_sqrt (by positivity)
  have hlt : (f * T) ^ 2 < √(q ^ 2 + T ^ 2) ^ 2 := by
    rw [hw2, mul_pow, hqf]
    nlinarith [sq_nonneg (q * T), pow_pos hq 2]
  have habs : |f * T| < √(q ^ 2 + T ^ 2) := by
    have := sq_lt_sq.1 hlt
    rwa [abs_of_pos hw] at this
  rw [abs_lt] at habs
  constructor
  · rw [lt_div_iff₀ hw]; linarith
  · rw [div_lt_iff₀ hw]; linarith

theorem hasDerivAt_rayW (hq : 0 < q) (T : ℝ) :
    HasDerivAt (fun T => √(q ^ 2 + T ^ 2)) (T / √(q ^ 2 + T ^ 2)) T := by
  have h : HasDerivAt (fun T : ℝ => q ^ 2 + T ^ 2) (2 * T) T := by
    have := (hasDerivAt_pow 2 T).const_add (q ^ 2)
    simpa using this
  have := h.sqrt (by positivity)
  convert this using 1
  field_simp

theorem hasDerivAt_rayX (hq : 0 < q) (hqf : f ^ 2 = 1 - q ^ 2) (T : ℝ) :
    HasDerivAt (rayX q f) (-(f * T) / (√(q ^ 2 + T ^ 2) * (1 + T ^ 2))) T := by
  have hw := rayW_pos hq T
  have hw2 : √(q ^ 2 + T ^ 2) ^ 2 = q ^ 2 + T ^ 2 := sq_sqrt (by positivity)
  have h1 := ((hasDerivAt_const T f).div (hasDerivAt_rayW hq T) hw.ne').arctan
  refine h1.congr_deriv ?_
  simp only [Pi.div_apply]
  generalize √(q ^ 2 + T ^ 2) = w at *
  have e : 1 + (f / w) ^ 2 = (1 + T ^ 2) / w ^ 2 := by
    field_simp
    rw [hw2]; linarith
  rw [e]
  have : 0 < 1 + T ^ 2 := by positivity
  field_simp
  ring

theorem hasDerivAt_rayY (hq : 0 < q) (hqf : f ^ 2 = 1 - q ^ 2) (T : ℝ) :
    HasDerivAt (rayY q f) (f / (√(q ^ 2 + T ^ 2) * (1 + T ^ 2))) T := by
  have hw := rayW_pos hq T
  have hw2 : √(q ^ 2 + T ^ 2) ^ 2 = q ^ 2 + T ^ 2 := sq_sqrt (by positivity)
  have hd : HasDerivAt (fun T => f * T / √(q ^ 2 + T ^ 2)) (f * q ^ 2 / √(q ^ 2 + T ^ 2) ^ 3) T := by
    have := ((hasDerivAt_id T).const_mul f).div (hasDerivAt_rayW hq T) hw.ne'
    refine this.congr_deriv ?_
    simp only [id]
    generalize √(q ^ 2 + T ^ 2) = w at *
    field_simp
    rw [hw2]; ring
  have h1 := (hasDerivAt_artanh (ray_sub_one hq hqf T)).comp T hd
  refine h1.congr_deriv ?_
  generalize √(q ^ 2 + T ^ 2) = w at *
  have e : 1 - (f * T / w) ^ 2 = q ^ 2 * (1 + T ^ 2) / w ^ 2 := by
    field_simp
    rw [hw2]; linear_combination -T ^ 2 * hqf
  rw [e]
  have : 0 < 1 + T ^ 2 := by positivity
  field_simp

theorem hasDerivAt_rayH (hq : 0 < q) (hqf : f ^ 2 = 1 - q ^ 2) (A b1 b2 T : ℝ) :
    HasDerivAt (rayH q f A b1 b2) (A * (f / √(q ^ 2 + T ^ 2) - arctan (f / √(q ^ 2 + T ^ 2))) - b1) T := by
  have hw := rayW_pos hq T
  have h1 := (((hasDerivAt_rayY hq hqf T).const_mul A).const_add b2).sub
    ((hasDerivAt_id T).mul (((hasDerivAt_rayX hq hqf T).const_mul A).const_add b1))
  refine h1.congr_deriv ?_
  simp only [id, rayX, one_mul]
  generalize √(q ^ 2 + T ^ 2) = w at *
  have : 0 < 1 + T ^ 2 := by positivity
  field_simp
  ring

theorem strictMono_sub_arctan : StrictMonoOn (fun u : ℝ => u - arctan u) (Ici 0) := by
  apply strictMonoOn_of_deriv_pos (convex_Ici 0)
  · exact (continuous_id.sub continuous_arctan).continuousOn
  · intro u hu
    rw [interior_Ici, mem_Ioi] at hu
    have h : HasDerivAt (fun u : ℝ => u - arctan u) (1 - 1 / (1 + u ^ 2)) u :=
      (hasDerivAt_id u).sub (Real.hasDerivAt_arctan u)
    rw [h.deriv, sub_pos, div_lt_one (by positivity)]
    nlinarith [pow_pos hu 2]

theorem sub_arctan_pos {u : ℝ} (hu : 0 < u) : 0 < u - arctan u := by
  have h := strictMono_sub_arctan (mem_Ici.2 le_rfl) (mem_Ici.2 hu.le) hu
  simpa using h

theorem continuous_rayH (hq : 0 < q) (hqf : f ^ 2 = 1 - q ^ 2) (A b1 b2 : ℝ) :
    Continuous (rayH q f A b1 b2) :=
  continuous_iff_continuousAt.2 fun T => (hasDerivAt_rayH hq hqf A b1 b2 T).continuousAt

theorem rayH_zero : rayH q f A b1 b2 0 = b2 := by simp [rayH, rayY]

theorem strictConcaveOn_rayH (hq : 0 < q) (hf : 0 < f) (hqf : f ^ 2 = 1 - q ^ 2) (hA : 0 < A) (b1 b2 : ℝ) :
    StrictConcaveOn ℝ (Ici 0) (rayH q f A b1 b2) := by
  refine StrictAntiOn.strictConcaveOn_of_deriv (convex_Ici 0) (continuous_rayH hq hqf A b1 b2).continuousOn ?_
  rw [interior_Ici]
  intro S hS T hT hST
  rw [(hasDerivAt_rayH hq hqf A b1 b2 T).deriv, (hasDerivAt_rayH hq hqf A b1 b2 S).deriv]
  rw [mem_Ioi] at hS hT
  have hlt : f / √(q ^ 2 + T ^ 2) < f / √(q ^ 2 + S ^ 2) := by
    apply div_lt_div_of_pos_left hf (rayW_pos hq S)
    exact Real.sqrt_lt_sqrt (by positivity) (by nlinarith)
  have := strictMono_sub_arctan (mem_Ici.2 (div_pos hf (rayW_pos hq T)).le) (mem_Ici.2 (div_pos hf (rayW_pos hq S)).le) hlt
  simp only at this
  nlinarith

/-- At most two slopes. -/
theorem rayH_no_three (hq : 0 < q) (hf : 0 < f) (hqf : f ^ 2 = 1 - q ^ 2) (hA : 0 < A) {R S T : ℝ} (hR : 0 ≤ R)
    (hRS : R < S) (hST : S < T) (h1 : 0 ≤ rayH q f A b1 b2 R) (h2 : rayH q f A b1 b2 S = 0) (h3 : rayH q f A b1 b2 T = 0) :
    False := by
  have hc := strictConcaveOn_rayH hq hf hqf hA b1 b2
  have hTR : 0 < T - R := by linarith
  have := hc.2 (mem_Ici.2 hR) (mem_Ici.2 (by linarith : (0 : ℝ) ≤ T)) (by linarith : R ≠ T)
    (div_pos (by linarith : 0 < T - S) hTR) (div_pos (by linarith : 0 < S - R) hTR) (by field_simp; ring)
  rw [h3, show ((T - S) / (T - R)) • R + ((S - R) / (T - R)) • T = S by simp only [smul_eq_mul]; field_simp; ring, h2] at this
  simp only [smul_eq_mul, mul_zero, add_zero] at this
  have : 0 ≤ (T - S) / (T - R) * rayH q f A b1 b2 R := mul_nonneg (div_nonneg (by linarith) hTR.le) h1
  linarith

theorem rayH_strictMono (hq : 0 < q) (hf : 0 < f) (hqf : f ^ 2 = 1 - q ^ 2) (hA : 0 < A) (hb : b1 ≤ 0) :
    StrictMonoOn (rayH q f A b1 b2) (Ici 0) := by
  apply strictMonoOn_of_deriv_pos (convex_Ici 0) (continuous_rayH hq hqf A b1 b2).continuousOn
  intro T _
  rw [(hasDerivAt_rayH hq hqf A b1 b2 T).deriv]
  have := mul_pos hA (sub_arctan_pos (div_pos hf (rayW_pos hq T)))
  linarith

theorem encard_le_two_of_no_three {s : Set ℝ} (h : ∀ a ∈ s, ∀ b ∈ s, ∀ c ∈ s, a < b → b < c → False) : s.encard ≤ 2 := by
  by_contra hlt
  push Not at hlt
  obtain ⟨t, ht, hc⟩ := Set.exists_subset_encard_eq (k := 3) (s := s) (by
    have := Order.add_one_le_of_lt hlt
    norm_num at this
    exact this)
  obtain ⟨x, y, z, hxy, hxz, hyz, rfl⟩ := Set.encard_eq_three.1 hc
  have hx := ht (show x ∈ ({x, y, z} : Set ℝ) by simp)
  have hy := ht (show y ∈ ({x, y, z} : Set ℝ) by simp)
  have hz := ht (show z ∈ ({x, y, z} : Set ℝ) by simp)
  rcases lt_or_gt_of_ne hxy with h1 | h1 <;> rcases lt_or_gt_of_ne hxz with h2 | h2 <;> rcases lt_or_gt_of_ne hyz with h3 | h3
  · exact h _ hx _ hy _ hz h1 h3
  · exact h _ hx _ hz _ hy h2 h3
  · linarith
  · exact h _ hz _ hx _ hy h2 h1
  · exact h _ hy _ hx _ hz h1 h2
  · linarith
  · exact h _ hy _ hz _ hx h3 h2
  · exact h _ hz _ hy _ hx h3 h1

open Classical in
/-- How many slopes: one if the source lies on the side of this quadrant along the major axis, one more if
it lies on the other side along the minor axis. -/
theorem rayH_zeros (hq : 0 < q) (hf : 0 < f) (hqf : f ^ 2 = 1 - q ^ 2) (hA : 0 < A) (b1 b2 : ℝ) :
    {T | 0 < T ∧ rayH q f A b1 b2 T = 0}.encard ≤ (if 0 < b1 then 1 else 0) + (if b2 < 0 then 1 else 0) := by
  by_cases h1 : 0 < b1
  · by_cases h2 : b2 < 0
    · rw [if_pos h1, if_pos h2, one_add_one_eq_two]
      apply encard_le_two_of_no_three
      intro a ha b hb c hc hab hbc
      exact rayH_no_three hq hf hqf hA ha.1.le hab hbc ha.2.ge hb.2 hc.2
    · rw [if_pos h1, if_neg h2, add_zero, encard_le_one_iff]
      intro a b ha hb
      by_contra hne
      rcases lt_or_gt_of_ne hne with h | h
      · exact rayH_no_three hq hf hqf hA le_rfl ha.1 h (by rw [rayH_zero]; exact not_lt.1 h2) ha.2 hb.2
      · exact rayH_no_three hq hf hqf hA le_rfl hb.1 h (by rw [rayH_zero]; exact not_lt.1 h2) hb.2 ha.2
  · have hm := rayH_strictMono (b2 := b2) hq hf hqf hA (not_lt.1 h1)
    by_cases h2 : b2 < 0
    · rw [if_neg h1, if_pos h2, zero_add, encard_le_one_iff]
      intro a b ha hb
      exact hm.injOn (mem_Ici.2 ha.1.le) (mem_Ici.2 hb.1.le) (ha.2.trans hb.2.symm)
    · rw [if_neg h1, if_neg h2, add_zero, nonpos_iff_eq_zero, encard_eq_zero, eq_empty_iff_forall_notMem]
      intro a ha
      have := hm (mem_Ici.2 le_rfl) (mem_Ici.2 ha.1.le) ha.1
      rw [rayH_zero, ha.2] at this
      exact h2 this

/-- In the quadrant of the source there is one. -/
theorem rayH_exists (hq : 0 < q) (hf : 0 < f) (hqf : f ^ 2 = 1 - q ^ 2) (hA : 0 < A) (h1 : 0 < b1) (h2 : 0 < b2) :
    ∃ T, 0 < T ∧ rayH q f A b1 b2 T = 0 := by
  have hf1 : f < 1 := by nlinarith [pow_pos hq 2]
  have hY : ∀ T, 0 ≤ T → rayY q f T ≤ artanh f := by
    intro T hT
    have hI := ray_sub_one hq hqf T
    have hle : f * T / √(q ^ 2 + T ^ 2) ≤ f := by
      rw [div_le_iff₀ (rayW_pos hq T)]
      exact mul_le_mul_of_nonneg_left (Real.le_sqrt_of_sq_le (by nlinarith [sq_nonneg q])) hf.le
    exact (strictMonoOn_artanh.monotoneOn) hI ⟨by linarith, hf1⟩ hle
  set U := (b2 + A * artanh f) / b1 + 1 with hU
  have hat : 0 ≤ artanh f := by
    have := hY 0 le_rfl
    simpa [rayY] using this
  have hU0 : 0 < U := by positivity
  have hneg : rayH q f A b1 b2 U < 0 := by
    have hx : 0 ≤ rayX q f U := arctan_nonneg.2 (div_nonneg hf.le (sqrt_nonneg _))
    have hy := hY U hU0.le
    have hb : b1 * U = b2 + A * artanh f + b1 := by rw [hU]; field_simp
    unfold rayH
    nlinarith [mul_le_mul_of_nonneg_left hy hA.le, mul_nonneg hU0.le (mul_nonneg hA.le hx)]
  obtain ⟨T, hT, hT0⟩ := intermediate_value_Icc' hU0.le (continuous_rayH hq hqf A b1 b2).continuousOn
    (show (0 : ℝ) ∈ Icc _ _ from ⟨hneg.le, by rw [rayH_zero]; exact h2.le⟩)
  refine ⟨T, lt_of_le_of_ne hT.1 ?_, hT0⟩
  rintro rfl
  rw [rayH_zero] at hT0
  exact h2.ne' hT0

end Caustics
