import Verif.Model.NDArray
import Mathlib.Algebra.Order.Field.Basic
import Mathlib.Algebra.BigOperators.Ring.Finset
import Mathlib.Algebra.BigOperators.Intervals

/-!
backend_obj.py: helpers whose two versions (torch, jax) are different programs.
`flatten` is in `Model/NDArray`, `chunk` in `Model/Chunk`.  What torch and jax functions do follows
their documentation; images are 2D (the leading batch and channel axes are untouched).
-/

namespace Caustics

/-- `torch.nn.functional.pad`: (before, after) for each axis.  The list is read in pairs from the last
axis backwards; odd or too long lists are errors. -/
def padWidthTorch (ndim : ℕ) (padding : List ℤ) : Except PyErr (List (ℤ × ℤ)) :=
  if padding.length % 2 = 1 ∨ 2 * ndim < padding.length then .error .valueError
  else .ok ((List.range ndim).map fun d =>
    ((padding[2 * (ndim - 1 - d)]?).getD 0, (padding[2 * (ndim - 1 - d) + 1]?).getD 0))

/-- backend_obj.py:286-295, one pass of the loop in `_pad_jax` (`i = 2 j`, `dim_idx = -(j + 1)`). -/
def padStep (ndim : ℕ) (padding : List ℤ) (w : List (ℤ × ℤ)) (j : ℕ) :
    Except PyErr (List (ℤ × ℤ)) :=
  match padding[2 * j]?, padding[2 * j + 1]? with
  | some l, some r => .ok (if j + 1 ≤ ndim then w.set (ndim - (j + 1)) (l, r) else w)
  | _, _ => .error .indexError

/-- backend_obj.py:278-297 `_pad_jax`, the construction of `pad_width`. -/
def padWidthJax (ndim : ℕ) (padding : List ℤ) : Except PyErr (List (ℤ × ℤ)) :=
  (List.range ((padding.length + 1) / 2)).foldlM (padStep ndim padding)
    (List.replicate ndim (0, 0))

variable {K : Type} [Field K]

/-- An image with `h` rows and `w` columns. -/
structure Pic (K : Type) where
  h : ℕ
  w : ℕ
  px : ℕ → ℕ → K

/-- Zero outside the image. -/
def Pic.at0 (a : Pic K) (i j : ℤ) : K :=
  if 0 ≤ i ∧ i < a.h ∧ 0 ≤ j ∧ j < a.w then a.px i.toNat j.toNat else 0

/-- backend_obj.py:502-508 `_avg_pool2d_torch`: `padding` zeros on each side, counted in the mean. -/
def avgPoolTorch (a : Pic K) (k : ℕ) (stride : Option ℕ) (padding : ℕ) : Except PyErr (Pic K) :=
  let s := stride.getD k
  if k = 0 ∨ s = 0 ∨ k < 2 * padding ∨ a.h + 2 * padding < k ∨ a.w + 2 * padding < k then
    .error .valueError
  else .ok
    { h := (a.h + 2 * padding - k) / s + 1
      w := (a.w + 2 * padding - k) / s + 1
      px := fun i j => (∑ p ∈ Finset.range k, ∑ q ∈ Finset.range k,
        a.at0 ((i * s + p : ℕ) - (padding : ℤ)) ((j * s + q : ℕ) - (padding : ℤ))) / (k : K) ^ 2 }

/-- backend_obj.py:510-521 `_avg_pool2d_jax`: `reduce_window` with padding "VALID"; the argument
`padding` is not used. -/
def avgPoolJax (a : Pic K) (k : ℕ) (stride : Option ℕ) (_padding : ℕ) : Except PyErr (Pic K) :=
  let s := stride.getD k
  if k = 0 ∨ s = 0 ∨ a.h < k ∨ a.w < k then .error .valueError
  else .ok
    { h := (a.h - k) / s + 1
      w := (a.w - k) / s + 1
      px := fun i j => (∑ p ∈ Finset.range k, ∑ q ∈ Finset.range k, a.px (i * s + p) (j * s + q))
        / (k : K) ^ 2 }

/-- backend_obj.py:262-265 `_upsample2d_torch` with method "nearest". -/
def upsampleTorch (a : Pic K) (s : ℕ) : Pic K where
  h := a.h * s
  w := a.w * s
  px i j := a.px (i / s) (j / s) / (s : K) ^ 2

variable [LinearOrder K]

/-- Unnormalised triangle weight of input sample `k` in output sample `i` when upsampling by `s`. -/
def triW (s i k : ℕ) : K := max 0 (1 - |((i : K) + 1 / 2) / s - 1 / 2 - k|)

/-- `jax.image.resize(method="bilinear")` along one axis with `n` samples: normalised triangle weights. -/
def resizeW (n s i k : ℕ) : K := triW s i k / ∑ l ∈ Finset.range n, triW s i l

/-- backend_obj.py:267-273 `_upsample2d_jax` with method "nearest" (replaced by bilinear) or
"bilinear". -/
def upsampleJax (a : Pic K) (s : ℕ) : Pic K where
  h := a.h * s
  w := a.w * s
  px i j := ∑ p ∈ Finset.range a.h, ∑ q ∈ Finset.range a.w,
    resizeW a.h s i p * resizeW a.w s j q * a.px p q

end Caustics
