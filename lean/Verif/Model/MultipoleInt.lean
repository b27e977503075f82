import Verif.Model.Lenses
import Verif.Model.Py

/-! The class `Multipole` keeps its orders as 32 bit integers (lenses/multipole.py). -/

open Real

namespace Caustics

/-- The 32 bit integer that arithmetic on `int32` arrays leaves for the integer `k` (two's complement, no error). -/
def wrap32 (k : ℤ) : ℤ := Int.bmod k (2 ^ 32)

/-- lenses/multipole.py:74-75: `backend.as_array(m, dtype=backend.int32)`, which refuses an integer that does not fit,
and the assertion `all(m >= 2)`. -/
def multipoleInit (ms : List ℤ) : Except PyErr (List ℤ) :=
  if ∃ m ∈ ms, wrap32 m ≠ m then .error .valueError
  else if ∀ m ∈ ms, 2 ≤ m then .ok ms
  else .error .assertionError

/-- `1 - m**2` with `m` an `int32` array (lenses/func/multipole.py:40-46, 88). -/
def multipoleDen (m : ℤ) : ℤ := wrap32 (1 - wrap32 (m ^ 2))

/-- lenses/multipole.py:109-148 with lenses/func/multipole.py:5-48, the orders being `int32`. -/
noncomputable def multipoleClassDeflection {n : ℕ} (x0 y0 : ℝ) (m : Fin n → ℤ) (a phim : Fin n → ℝ) (x y : ℝ) : ℝ × ℝ :=
  let p := translateRotate x y x0 y0 none
  let phi := arctan2 p.2 p.1
  (∑ i, (cos phi * a i / multipoleDen (m i) * cos (m i * (phi - phim i))
      + sin phi * m i * a i / multipoleDen (m i) * sin (m i * (phi - phim i))),
   ∑ i, (sin phi * a i / multipoleDen (m i) * cos (m i * (phi - phim i))
      - cos phi * m i * a i / multipoleDen (m i) * sin (m i * (phi - phim i))))

/-- lenses/multipole.py:151-185 with lenses/func/multipole.py:51-91. -/
noncomputable def multipoleClassPotential {n : ℕ} (x0 y0 : ℝ) (m : Fin n → ℤ) (a phim : Fin n → ℝ) (x y : ℝ) : ℝ :=
  let p := translateRotate x y x0 y0 none
  let r := √(p.1 ^ 2 + p.2 ^ 2)
  let phi := arctan2 p.2 p.1
  ∑ i, r * a i / multipoleDen (m i) * cos (m i * (phi - phim i))

/-- lenses/multipole.py:188-222 with lenses/func/multipole.py:94-134; no square of an order here. -/
noncomputable def multipoleClassConvergence {n : ℕ} (x0 y0 : ℝ) (m : Fin n → ℤ) (a phim : Fin n → ℝ) (x y : ℝ) : ℝ :=
  let p := translateRotate x y x0 y0 none
  let r := √(p.1 ^ 2 + p.2 ^ 2)
  let phi := arctan2 p.2 p.1
  ∑ i, 1 / (2 * r) * a i * cos (m i * (phi - phim i))

end Caustics
