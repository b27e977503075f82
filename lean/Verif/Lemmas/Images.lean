import Verif.Model.Images
import Verif.Lemmas.Lens
import Verif.Lemmas.Softening
import Mathlib.Tactic.FieldSimp
import Mathlib.Tactic.LinearCombination
import Mathlib.Tactic.Ring

/-! The lens equation of a lens with radial deflection. -/

open Real

namespace Caustics

/-- A lens deflecting radially by `A r` images a source at distance `β` from its centre onto the
line through centre and source, at the signed distances `t` that solve `t - A |t| t / |t| = β`. -/
theorem radial_image {A : ℝ → ℝ} {u v b c : ℝ} (hb : b ≠ 0 ∨ c ≠ 0) :
    (u ≠ 0 ∨ v ≠ 0) ∧ u - A (√(u ^ 2 + v ^ 2)) * u / √(u ^ 2 + v ^ 2) = b ∧
        v - A (√(u ^ 2 + v ^ 2)) * v / √(u ^ 2 + v ^ 2) = c ↔
      ∃ t : ℝ, t ≠ 0 ∧ t * (1 - A |t| / |t|) = √(b ^ 2 + c ^ 2) ∧
        u = t / √(b ^ 2 + c ^ 2) * b ∧ v = t / √(b ^ 2 + c ^ 2) * c := by
  have hβ := radius_pos hb
  have hβ2 := radius_sq b c
  set β := √(b ^ 2 + c ^ 2) with hβd
  constructor
  · rintro ⟨h0, hu, hv⟩
    have hr := radius_pos h0
    have hr2 := radius_sq u v
    set r := √(u ^ 2 + v ^ 2) with hrd
    set k := 1 - A r / r with hk
    have hu' : k * u = b := by rw [← hu, hk]; field_simp
    have hv' : k * v = c := by rw [← hv, hk]; field_simp
    have hk0 : k ≠ 0 := by
      rintro h; rw [h, zero_mul] at hu' hv'
      rcases hb with hb | hb
      · exact hb hu'.symm
      · exact hb hv'.symm
    have hkr : |k| * r = β := by
      refine (pow_left_inj₀ (by positivity) hβ.le two_ne_zero).1 ?_
      rw [mul_pow, sq_abs, hβ2, hr2, ← hu', ← hv']; ring
    have ht : |β / k| = r := by
      rw [abs_div, abs_of_pos hβ, ← hkr]
      have : |k| ≠ 0 := abs_ne_zero.2 hk0
      field_simp
    refine ⟨β / k, div_ne_zero hβ.ne' hk0, ?_, ?_, ?_⟩
    · rw [ht, ← hk]; field_simp
    · rw [← hu']; field_simp
    · rw [← hv']; field_simp
  · rintro ⟨t, ht, he, hu, hv⟩
    have hr : √(u ^ 2 + v ^ 2) = |t| := by
      rw [← sqrt_sq (abs_nonneg t), sq_abs, hu, hv]
      congr 1
      have : t ^ 2 = (t / β) ^ 2 * β ^ 2 := by field_simp
      rw [this, hβ2]; ring
    rw [hr]
    have hkβ : t / β * (1 - A |t| / |t|) = 1 := by
      rw [div_mul_eq_mul_div, he]; exact div_self hβ.ne'
    refine ⟨?_, ?_, ?_⟩
    · rcases hb with hb | hb
      · left; rw [hu]; exact mul_ne_zero (div_ne_zero ht hβ.ne') hb
      · right; rw [hv]; exact mul_ne_zero (div_ne_zero ht hβ.ne') hb
    · rw [hu]; linear_combination b * hkβ
    · rw [hv]; linear_combination c * hkβ

/-- A source exactly behind the centre of a radial lens is imaged onto the circles on which the
deflection equals the radius. -/
theorem radial_ring {A : ℝ → ℝ} {u v : ℝ} (h0 : u ≠ 0 ∨ v ≠ 0) :
    u - A (√(u ^ 2 + v ^ 2)) * u / √(u ^ 2 + v ^ 2) = 0 ∧
        v - A (√(u ^ 2 + v ^ 2)) * v / √(u ^ 2 + v ^ 2) = 0 ↔
      A (√(u ^ 2 + v ^ 2)) = √(u ^ 2 + v ^ 2) := by
  have hr := radius_pos h0
  generalize √(u ^ 2 + v ^ 2) = r at *
  constructor
  · rintro ⟨hu, hv⟩
    rcases h0 with h | h
    · field_simp at hu
      exact ((mul_eq_zero.1 (by linear_combination hu : u * (r - A r) = 0)).resolve_left h |>
        sub_eq_zero.1).symm
    · field_simp at hv
      exact ((mul_eq_zero.1 (by linear_combination hv : v * (r - A r) = 0)).resolve_left h |>
        sub_eq_zero.1).symm
  · intro h
    rw [h]
    constructor <;> field_simp <;> ring

end Caustics
