import Verif.Model.Interp
import Mathlib.Algebra.BigOperators.Ring.Finset
import Mathlib.Algebra.Order.Floor.Ring

/-!
Bicubic interpolation (utils.py:1079-1321) and the lens built on it
(lenses/pixelated_potential.py).  One query point; the `ndim` checks hold by typing.
-/

namespace Caustics

variable {K : Type*} [Field K] [LinearOrder K]

/-- utils.py:1079-1096 `BC`. -/
def BC : List (List ℤ) :=
  [[1, 0, 0, 0, 0, 0, 0, 0, 0, 0, 0, 0, 0, 0, 0, 0],
   [0, 0, 0, 0, 0, 0, 0, 0, 1, 0, 0, 0, 0, 0, 0, 0],
   [-3, 0, 0, 3, 0, 0, 0, 0, -2, 0, 0, -1, 0, 0, 0, 0],
   [2, 0, 0, -2, 0, 0, 0, 0, 1, 0, 0, 1, 0, 0, 0, 0],
   [0, 0, 0, 0, 1, 0, 0, 0, 0, 0, 0, 0, 0, 0, 0, 0],
   [0, 0, 0, 0, 0, 0, 0, 0, 0, 0, 0, 0, 1, 0, 0, 0],
   [0, 0, 0, 0, -3, 0, 0, 3, 0, 0, 0, 0, -2, 0, 0, -1],
   [0, 0, 0, 0, 2, 0, 0, -2, 0, 0, 0, 0, 1, 0, 0, 1],
   [-3, 3, 0, 0, -2, -1, 0, 0, 0, 0, 0, 0, 0, 0, 0, 0],
   [0, 0, 0, 0, 0, 0, 0, 0, -3, 3, 0, 0, -2, -1, 0, 0],
   [9, -9, 9, -9, 6, 3, -3, -6, 6, -6, -3, 3, 4, 2, 1, 2],
   [-6, 6, -6, 6, -4, -2, 2, 4, -3, 3, 3, -3, -2, -1, -1, -2],
   [2, -2, 0, 0, 1, 1, 0, 0, 0, 0, 0, 0, 0, 0, 0, 0],
   [0, 0, 0, 0, 0, 0, 0, 0, 2, -2, 0, 0, 1, 1, 0, 0],
   [-6, 6, -6, 6, -3, -3, 3, 3, -4, 4, 2, -2, -2, -2, -1, -1],
   [4, -4, 4, -4, 2, 2, -2, -2, 2, -2, -2, 2, 1, 1, 1, 1]]

/-- utils.py:1099-1129 `bicubic_kernels`.  `Z[1]` and `Z[:, 1]` raise on images of one row or
column; otherwise the three `fill_at_indices` of each map touch disjoint entries. -/
def bicubicKernels {h w : ℕ} (Z : Fin h → Fin w → K) (d1 d2 : K) :
    Except PyErr ((Fin h → Fin w → K) × (Fin h → Fin w → K) × (Fin h → Fin w → K)) :=
  if hs : 2 ≤ h ∧ 2 ≤ w then
    .ok
      (fun i j =>
        if hi : i.val = 0 then (Z i j - Z ⟨1, by omega⟩ j) / d1
        else if hl : i.val = h - 1 then (Z ⟨h - 2, by omega⟩ j - Z i j) / d1
        else (Z ⟨i - 1, by omega⟩ j - Z ⟨i + 1, by omega⟩ j) / (2 * d1),
       fun i j =>
        if hj : j.val = 0 then (Z i j - Z i ⟨1, by omega⟩) / d2
        else if hl : j.val = w - 1 then (Z i ⟨w - 2, by omega⟩ - Z i j) / d2
        else (Z i ⟨j - 1, by omega⟩ - Z i ⟨j + 1, by omega⟩) / (2 * d2),
       fun i j =>
        if hb : i.val = 0 ∨ i.val = h - 1 ∨ j.val = 0 ∨ j.val = w - 1 then 0
        else (Z ⟨i - 1, by omega⟩ ⟨j - 1, by omega⟩ - Z ⟨i - 1, by omega⟩ ⟨j + 1, by omega⟩
          - Z ⟨i + 1, by omega⟩ ⟨j - 1, by omega⟩ + Z ⟨i + 1, by omega⟩ ⟨j + 1, by omega⟩)
            / (4 * d1 * d2))
  else .error .indexError

/-- utils.py:1277-1281: `c = (BC @ v).reshape(4, 4)`, as a function of the two indices. -/
def bicubicCoef (v : List K) (i j : ℕ) : K :=
  (List.zipWith (fun (b : ℤ) x => (b : K) * x) (BC.getD (4 * i + j) []) v).sum

/-- utils.py:1289-1294. -/
def bicubicY (c : ℕ → ℕ → K) (t u : K) : K :=
  ∑ i ∈ Finset.range 4, ∑ j ∈ Finset.range 4, c i j * t ^ i * u ^ j

/-- utils.py:1295-1301, the `dY1` accumulator. -/
def bicubicY1 (c : ℕ → ℕ → K) (t u : K) : K :=
  ∑ i ∈ Finset.range 4, ∑ j ∈ Finset.range 4,
    if i > 0 then (i : K) * c i j * t ^ (i - 1) * u ^ j else 0

/-- utils.py:1295-1303, the `dY2` accumulator. -/
def bicubicY2 (c : ℕ → ℕ → K) (t u : K) : K :=
  ∑ i ∈ Finset.range 4, ∑ j ∈ Finset.range 4,
    if j > 0 then (j : K) * c i j * t ^ i * u ^ (j - 1) else 0

/-- utils.py:1306-1313, the `dY12` accumulator. -/
def bicubicY12 (c : ℕ → ℕ → K) (t u : K) : K :=
  ∑ i ∈ Finset.range 4, ∑ j ∈ Finset.range 4,
    if i > 0 ∧ j > 0 then (i : K) * (j : K) * c i j * t ^ (i - 1) * u ^ (j - 1) else 0

/-- utils.py:1306-1315, the `dY11` accumulator. -/
def bicubicY11 (c : ℕ → ℕ → K) (t u : K) : K :=
  ∑ i ∈ Finset.range 4, ∑ j ∈ Finset.range 4,
    if i > 1 then (i : K) * ((i : K) - 1) * c i j * t ^ (i - 2) * u ^ j else 0

/-- utils.py:1306-1317, the `dY22` accumulator. -/
def bicubicY22 (c : ℕ → ℕ → K) (t u : K) : K :=
  ∑ i ∈ Finset.range 4, ∑ j ∈ Finset.range 4,
    if j > 1 then (j : K) * ((j : K) - 1) * c i j * t ^ i * u ^ (j - 2) else 0

/-- utils.py:1238-1245: the derivative maps in use; each omitted one is estimated. -/
def resolveMaps {h w : ℕ} (Z : Fin h → Fin w → K) (dZ1 dZ2 dZ12 : Option (Fin h → Fin w → K)) :
    Except PyErr ((Fin h → Fin w → K) × (Fin h → Fin w → K) × (Fin h → Fin w → K)) :=
  match dZ1, dZ2, dZ12 with
  | some a, some b, some c => .ok (a, b, c)
  | _, _, _ => do
    let (a, b, c) ← bicubicKernels Z 1 1
    pure (dZ1.getD a, dZ2.getD b, dZ12.getD c)

variable [FloorRing K]

/-- utils.py:1285-1288: position within the cell, `x % 1` shifted in the border cells. -/
def cellPos (x : K) (n : ℕ) : K :=
  if x < 0 then Int.fract x - 1
  else if x ≥ (n : K) - 1 then Int.fract x + 1
  else Int.fract x

/-- utils.py:1132-1321 `interp_bicubic` for one query; `none` stands for an omitted map. -/
def interpBicubic {h w : ℕ} (x y : K) (Z : Fin h → Fin w → K)
    (dZ1 dZ2 dZ12 : Option (Fin h → Fin w → K)) (getY getdY getddY : Bool) :
    Except PyErr (List K) := do
  let x := clamp (toPix x w) (-(1 / 2)) ((w : K) - 1 / 2)
  let y := clamp (toPix y h) (-(1 / 2)) ((h : K) - 1 / 2)
  let (m1, m2, m12) ← resolveMaps Z dZ1 dZ2 dZ12
  let x0 : ℤ := clamp ⌊x⌋ 0 ((w : ℤ) - 2)
  let x1 : ℤ := clamp (⌊x⌋ + 1) 1 ((w : ℤ) - 1)
  let y0 : ℤ := clamp ⌊y⌋ 0 ((h : ℤ) - 2)
  let y1 : ℤ := clamp (⌊y⌋ + 1) 1 ((h : ℤ) - 1)
  let v ← [Z, m1, m2, m12].mapM fun m => do
    let a ← imGet m y0 x0
    let b ← imGet m y0 x1
    let c ← imGet m y1 x1
    let d ← imGet m y1 x0
    pure [a, b, c, d]
  let c := bicubicCoef v.flatten
  let t := cellPos x w
  let u := cellPos y h
  return (if getY then [bicubicY c t u] else [])
    ++ (if getdY then [bicubicY1 c t u, bicubicY2 c t u] else [])
    ++ (if getddY then [bicubicY12 c t u, bicubicY11 c t u, bicubicY22 c t u] else [])

/-! ### PixelatedPotential (lenses/pixelated_potential.py) -/

/-- The parameters of a `PixelatedPotential`. -/
structure PixPot (h w : ℕ) (K : Type*) where
  x0 : K
  y0 : K
  map : Fin h → Fin w → K
  pixelscale : K

/-- The call of `interp_bicubic` shared by the three methods. -/
def PixPot.query {h w : ℕ} (P : PixPot h w K) (x y : K) (getY getdY getddY : Bool) :
    Except PyErr (List K) :=
  interpBicubic ((x - P.x0) / ((w : K) * P.pixelscale) * 2)
    ((y - P.y0) / ((h : K) * P.pixelscale) * 2) P.map none none none getY getdY getddY

/-- lenses/pixelated_potential.py:153-165 `reduced_deflection_angle`. -/
def PixPot.deflection {h w : ℕ} (P : PixPot h w K) (x y : K) : Except PyErr (K × K) := do
  match ← P.query x y false true false with
  | [a, b] => pure (a / P.pixelscale, b / P.pixelscale)
  | _ => .error .valueError

/-- lenses/pixelated_potential.py:200-209 `potential`. -/
def PixPot.potential {h w : ℕ} (P : PixPot h w K) (x y : K) : Except PyErr K := do
  match ← P.query x y true false false with
  | Y :: _ => pure Y
  | [] => .error .indexError

/-- lenses/pixelated_potential.py:244-254 `convergence`. -/
def PixPot.convergence {h w : ℕ} (P : PixPot h w K) (x y : K) : Except PyErr K := do
  match ← P.query x y false false true with
  | [_, a, b] => pure ((a + b) / (2 * P.pixelscale ^ 2))
  | _ => .error .valueError

end Caustics
