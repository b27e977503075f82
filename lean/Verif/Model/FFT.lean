import Mathlib.Data.Real.Basic
import Mathlib.Analysis.SpecialFunctions.Complex.Circle
import Mathlib.Analysis.Complex.Trigonometric

/-!
Images and the array operations the convolutions are made of: `rfft2`, `irfft2`, `roll`, `flip`,
`conv2d(padding="same")`, slicing and `avg_pool2d` (backend_obj.py:297-327, 502-523, 775-776).

A two-dimensional array of reals is an `Img`: number of rows, number of columns and the entries as a
function of row and column, of which only those inside the array are meaningful.  The Fourier
transforms are the exact sums that the FFT computes.
-/

namespace Caustics

/-- A two-dimensional array. -/
@[ext] structure Img where
  /-- number of rows (size of dimension -2) -/
  h : ℕ
  /-- number of columns (size of dimension -1) -/
  w : ℕ
  /-- entry in row `i`, column `j` -/
  at' : ℕ → ℕ → ℝ

/-- Same shape and same entries. -/
def Img.Same (a b : Img) : Prop :=
  a.h = b.h ∧ a.w = b.w ∧ ∀ i j, i < a.h → j < a.w → a.at' i j = b.at' i j

/-- The entry, or zero outside the array: what zero padding to a larger size reads. -/
def Img.pad (x : Img) (i j : ℕ) : ℝ := if i < x.h ∧ j < x.w then x.at' i j else 0

/-- `exp(2 pi i k / n)`. -/
noncomputable def twiddle (n : ℕ) (k : ℤ) : ℂ := Complex.exp (2 * Real.pi * Complex.I * k / n)

/-- `fft.rfft2(x, (s0, s1))`: the input is cropped or zero padded to `s0` rows and `s1` columns.  Of the
result only the rows `u < s0` and columns `v <= s1 / 2` exist. -/
noncomputable def rfft2 (x : Img) (s0 s1 : ℕ) (u v : ℕ) : ℂ :=
  ∑ a ∈ Finset.range s0, ∑ b ∈ Finset.range s1, (x.pad a b : ℂ) * (twiddle s0 (-(u * a)) * twiddle s1 (-(v * b)))

/-- `fft.irfft2(X, (s0, s1))`: inverse transform over rows, then the real inverse transform over columns,
which reads only the columns `v <= s1 / 2` of the spectrum. -/
noncomputable def irfft2 (X : ℕ → ℕ → ℂ) (s0 s1 : ℕ) : Img where
  h := s0
  w := s1
  at' a b :=
    let Q (v : ℕ) : ℂ := (∑ u ∈ Finset.range s0, X u v * twiddle s0 (u * a)) / s0
    let H (v : ℕ) : ℂ := if v ≤ s1 / 2 then Q v else starRingEnd ℂ (Q (s1 - v))
    (∑ v ∈ Finset.range s1, (H v * twiddle s1 (v * b)).re) / s1

/-- `roll(x, (d0, d1), dims=(-2, -1))`. -/
def Img.roll (x : Img) (d0 d1 : ℤ) : Img where
  h := x.h
  w := x.w
  at' i j := x.at' ((i - d0) % x.h).toNat ((j - d1) % x.w).toNat

/-- `flip(x, (0, 1))`, also `flip(x, (-1, -2))`. -/
def Img.flip (x : Img) : Img where
  h := x.h
  w := x.w
  at' i j := x.at' (x.h - 1 - i) (x.w - 1 - j)

/-- The entry at an integer position, zero outside. -/
def Img.padZ (x : Img) (i j : ℤ) : ℝ := if 0 ≤ i ∧ 0 ≤ j then x.pad i.toNat j.toNat else 0

/-- `conv2d(x, k, padding="same")` of one image with one kernel (stride 1): a cross-correlation; of the
`k - 1` missing samples per dimension `(k - 1) // 2` are added in front, the rest behind. -/
noncomputable def conv2dSame (x k : Img) : Img where
  h := x.h
  w := x.w
  at' i j := ∑ m ∈ Finset.range k.h, ∑ n ∈ Finset.range k.w,
    k.at' m n * x.padZ ((i : ℤ) + m - ((k.h - 1) / 2 : ℕ)) ((j : ℤ) + n - ((k.w - 1) / 2 : ℕ))

/-- `x[r0:r1, c0:c1]` with `0 <= r0`, `0 <= c0`; slices are cut at the size of the array. -/
def Img.slice (x : Img) (r0 r1 c0 c1 : ℕ) : Img where
  h := min r1 x.h - min r0 x.h
  w := min c1 x.w - min c0 x.w
  at' i j := x.at' (i + min r0 x.h) (j + min c0 x.w)

/-- `avg_pool2d(x, f)`: means over `f` by `f` blocks, an incomplete last block is dropped. -/
noncomputable def Img.avgPool (x : Img) (f : ℕ) : Img where
  h := x.h / f
  w := x.w / f
  at' i j := (∑ m ∈ Finset.range f, ∑ n ∈ Finset.range f, x.at' (i * f + m) (j * f + n)) / (f * f : ℕ)

/-- `x.sum()`. -/
noncomputable def Img.sum (x : Img) : ℝ := ∑ i ∈ Finset.range x.h, ∑ j ∈ Finset.range x.w, x.at' i j

/-- Elementwise operations with a number. -/
noncomputable def Img.div (x : Img) (c : ℝ) : Img := { x with at' := fun i j => x.at' i j / c }

end Caustics
