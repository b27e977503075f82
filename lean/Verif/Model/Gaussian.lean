import Verif.Model.Grid
import Verif.Model.FFT

/-! The Gaussian PSF kernel, `utils.py:1638-1661`. -/

namespace Caustics

/-- utils.py:1638-1661 `gaussian`.  The array of `ny * upsample` rows and `nx * upsample` columns is
reshaped to `(ny, upsample, nx, upsample)`, so that entry `(i, a, j, b)` is row `i * upsample + a`,
column `j * upsample + b`, and summed over `a` and `b`. -/
noncomputable def gaussianKernel (pixelscale : ℝ) (nx ny : ℕ) (sigma : ℝ) (upsample : ℕ) : Img :=
  let xs := linspace (-((nx : ℝ) * upsample - 1) * pixelscale / 2) (((nx : ℝ) * upsample - 1) * pixelscale / 2)
    (nx * upsample)
  let ys := linspace (-((ny : ℝ) * upsample - 1) * pixelscale / 2) (((ny : ℝ) * upsample - 1) * pixelscale / 2)
    (ny * upsample)
  let Z0 (i j : ℕ) : ℝ := Real.exp (-0.5 * (xs.getD j 0 ^ 2 + ys.getD i 0 ^ 2) / sigma ^ 2)
  let Z : Img := ⟨ny, nx, fun i j => ∑ a ∈ Finset.range upsample, ∑ b ∈ Finset.range upsample,
    Z0 (i * upsample + a) (j * upsample + b)⟩
  Z.div Z.sum

end Caustics
