import Verif.Lemmas.Grad
import Mathlib.Analysis.Calculus.FDeriv.Symmetric

/-! The Jacobian of a gradient field is symmetric. -/

namespace Caustics

/-- If `v` is the gradient of `psi` near a point and is differentiable at it, it is curl-free there. -/
theorem jac_symm {psi : ℝ → ℝ → ℝ} {v : ℝ → ℝ → ℝ × ℝ} {axx axy ayx ayy x y : ℝ}
    (hpsi : ∀ᶠ p : ℝ × ℝ in nhds (x, y), HasGrad psi (v p.1 p.2).1 (v p.1 p.2).2 p.1 p.2)
    (hJ : HasJac v axx axy ayx ayy x y) : axy = ayx := by
  have h1 := HasFDerivAt.smul_const (𝕜 := ℝ) (𝕜' := ℝ) (F := (ℝ × ℝ) →L[ℝ] ℝ) hJ.1 (ContinuousLinearMap.fst ℝ ℝ ℝ)
  have h2 := HasFDerivAt.smul_const (𝕜 := ℝ) (𝕜' := ℝ) (F := (ℝ × ℝ) →L[ℝ] ℝ) hJ.2 (ContinuousLinearMap.snd ℝ ℝ ℝ)
  have h := h1.add h2
  have hf : ∀ᶠ p : ℝ × ℝ in nhds (x, y), HasFDerivAt (fun p : ℝ × ℝ => psi p.1 p.2)
      ((v p.1 p.2).1 • ContinuousLinearMap.fst ℝ ℝ ℝ + (v p.1 p.2).2 • ContinuousLinearMap.snd ℝ ℝ ℝ) p := by
    filter_upwards [hpsi] with p hp
    refine HasFDerivAt.congr_fderiv hp ?_
    ext <;> simp
  have := second_derivative_symmetric_of_eventually hf h (0, 1) (1, 0)
  simpa using this

end Caustics
