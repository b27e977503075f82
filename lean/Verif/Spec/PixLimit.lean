import Verif.Spec.PixConv
import Verif.Lemmas.RiemannKernel

/-! The lens a sampled convergence map stands for. -/

namespace Caustics

open MeasureTheory

/-- The convergence `f`, given relative to the centre of the lens, sampled at the pixel centres of an `n` by `n` map with
field of view `L`. -/
noncomputable def sampledMap (f : ℝ × ℝ → ℝ) (L : ℝ) (n : ℕ) : Img :=
  ⟨n, n, fun i j => f (pixPos (L / n) n j, pixPos (L / n) n i)⟩

/-- Deflection, first component, at a position relative to the centre of a square of side `L` with convergence `f`:
`(1/π) ∫ f(z) (x - z) / |x - z|² dz`. -/
noncomputable def trueDeflectionX (f : ℝ × ℝ → ℝ) (L x y : ℝ) : ℝ :=
  1 / Real.pi * ∫ z in square L, f z * ((x - z.1) / ((x - z.1) ^ 2 + (y - z.2) ^ 2))

/-- Second component. -/
noncomputable def trueDeflectionY (f : ℝ × ℝ → ℝ) (L x y : ℝ) : ℝ :=
  1 / Real.pi * ∫ z in square L, f z * ((y - z.2) / ((x - z.1) ^ 2 + (y - z.2) ^ 2))

/-- Potential, `(1/π) ∫ f(z) log |x - z| dz`. -/
noncomputable def truePotential (f : ℝ × ℝ → ℝ) (L x y : ℝ) : ℝ :=
  1 / Real.pi * ∫ z in square L, f z * Real.log (Real.sqrt ((x - z.1) ^ 2 + (y - z.2) ^ 2))

end Caustics
