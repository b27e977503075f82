import Verif.Model.PixConv

/-! What a pixelated convergence map means: point masses at the pixel centres. -/

namespace Caustics

/-- Coordinate of the centre of pixel `k` of `n`, relative to the centre of the map. -/
noncomputable def pixPos (ps : ℝ) (n k : ℕ) : ℝ := ((k : ℝ) - ((n : ℝ) - 1) / 2) * ps

/-- Deflection, first component, at `(X, Y)` of point masses `κ ps² / π` at the pixel centres; a mass
does not act on its own position. -/
noncomputable def massDeflectionX (ps : ℝ) (κ : Img) (X Y : ℝ) : ℝ :=
  ps ^ 2 / Real.pi * ∑ a ∈ Finset.range κ.h, ∑ b ∈ Finset.range κ.w, κ.at' a b *
    ((X - pixPos ps κ.w b) / ((X - pixPos ps κ.w b) ^ 2 + (Y - pixPos ps κ.h a) ^ 2))

/-- Second component. -/
noncomputable def massDeflectionY (ps : ℝ) (κ : Img) (X Y : ℝ) : ℝ :=
  ps ^ 2 / Real.pi * ∑ a ∈ Finset.range κ.h, ∑ b ∈ Finset.range κ.w, κ.at' a b *
    ((Y - pixPos ps κ.h a) / ((X - pixPos ps κ.w b) ^ 2 + (Y - pixPos ps κ.h a) ^ 2))

/-- Potential of the same masses. -/
noncomputable def massPotential (ps : ℝ) (κ : Img) (X Y : ℝ) : ℝ :=
  ps ^ 2 / Real.pi * ∑ a ∈ Finset.range κ.h, ∑ b ∈ Finset.range κ.w, κ.at' a b *
    Real.log (Real.sqrt ((X - pixPos ps κ.w b) ^ 2 + (Y - pixPos ps κ.h a) ^ 2))

/-- A map that looks the same after a half turn. -/
def PointSymmetric (κ : Img) : Prop :=
  ∀ a b, a < κ.h → b < κ.w → κ.at' (κ.h - 1 - a) (κ.w - 1 - b) = κ.at' a b

end Caustics
