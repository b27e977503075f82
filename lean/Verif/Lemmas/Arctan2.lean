import Verif.Model.Coord
import Mathlib.Tactic.LinearCombination

namespace Caustics

theorem arctan2_polar {r : ℝ} (hr : 0 < r) {t : ℝ} (ht : t ∈ Set.Ioc (-Real.pi) Real.pi) :
    arctan2 (r * Real.sin t) (r * Real.cos t) = t := by
  have h := Complex.arg_mul_cos_add_sin_mul_I hr ht
  unfold arctan2
  refine Eq.trans ?_ h
  congr 1
  apply Complex.ext <;> simp [Complex.cos_ofReal_re, Complex.sin_ofReal_re,
    Complex.cos_ofReal_im, Complex.sin_ofReal_im]

/-- Length times the cosine of `arctan2` is the abscissa. -/
theorem sqrt_mul_cos_arctan2 (x y : ℝ) :
    Real.sqrt (x ^ 2 + y ^ 2) * Real.cos (arctan2 y x) = x := by
  have h := Complex.norm_mul_cos_arg (⟨x, y⟩ : ℂ)
  have hn : ‖(⟨x, y⟩ : ℂ)‖ = Real.sqrt (x ^ 2 + y ^ 2) := by
    rw [Complex.norm_def, Complex.normSq_mk]; congr 1; ring
  rw [hn] at h
  exact h

theorem sqrt_mul_sin_arctan2 (x y : ℝ) :
    Real.sqrt (x ^ 2 + y ^ 2) * Real.sin (arctan2 y x) = y := by
  have h := Complex.norm_mul_sin_arg (⟨x, y⟩ : ℂ)
  have hn : ‖(⟨x, y⟩ : ℂ)‖ = Real.sqrt (x ^ 2 + y ^ 2) := by
    rw [Complex.norm_def, Complex.normSq_mk]; congr 1; ring
  rw [hn] at h
  exact h

theorem arctan2_mem (x y : ℝ) : arctan2 y x ∈ Set.Ioc (-Real.pi) Real.pi :=
  Complex.arg_mem_Ioc _

end Caustics
