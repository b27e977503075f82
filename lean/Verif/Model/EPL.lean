import Verif.Model.Coord
import Verif.Model.Py
import Mathlib.Analysis.SpecialFunctions.Pow.Real
import Mathlib.Analysis.Complex.Basic

/-!
The elliptical power law lens: `src/caustics/lenses/func/epl.py`.

One position per call, reals for floats.  At the centre Python gets `0/0 = nan`, which `nan_to_num`
(epl.py:135-136) turns into 0; elsewhere every value is finite and `nan_to_num` does nothing.
-/

namespace Caustics

open Complex

/-- `backend.cumprod(l, dim=0)`. -/
def cumprod (l : List ℂ) : List ℂ := (l.scanl (· * ·) 1).tail

/-- lenses/func/epl.py:24 and 31, the factor of term `i`. -/
noncomputable def eplFactor (t : ℝ) (i : ℕ) : ℝ := (2 * i - (2 - t)) / (2 * i + (2 - t))

/-- lenses/func/epl.py:19-28, one term at a time; the state is `(omega_i, part_sum)`. -/
noncomputable def rOmegaLoop (z phi : ℂ) (t : ℝ) (n_iter : ℕ) : ℂ :=
  (((List.range (n_iter - 1)).map (· + 1)).foldl
    (fun (s : ℂ × ℂ) i =>
      let omega := (eplFactor t i : ℂ) * phi * s.1
      (omega, s.2 + omega)) (z, z)).2

/-- lenses/func/epl.py:36-48, the body of the loop over chunks.  The state is
`(cumprod, cumprod_res)`, `none` before the first chunk. -/
def rOmegaChunk (factor : List ℂ) (phi : ℂ) (n_iter chunk : ℕ)
    (s : Option (List ℂ × ℂ)) (i : ℕ) : Except PyErr (Option (List ℂ × ℂ)) :=
  let rec' := ((factor.take (max ((i + 1) * chunk) n_iter)).drop (i * chunk)).map (· * phi)
  match s with
  | none => .ok (some (cumprod rec', (cumprod rec').sum))
  | some (cp, res) => do
    let last ← pyGet cp (-1)
    let cp' := (cumprod (last :: rec')).tail
    .ok (some (cp', res + cp'.sum))

/-- lenses/func/epl.py:5-49 `_r_omega`; `chunk_size = none` is Python's `None`. -/
noncomputable def rOmega (z : ℂ) (t q : ℝ) (n_iter : ℕ) (chunk_size : Option ℕ) : Except PyErr ℂ :=
  let f := (1 - q) / (1 + q)
  let phi := z / (starRingEnd ℂ) z * (-f : ℝ)
  let chunk := chunk_size.getD n_iter
  if chunk = 1 then .ok (rOmegaLoop z phi t n_iter)
  else if chunk = 0 then .error .zeroDivision
  else do
    let factor := ((List.range (n_iter - 1)).map (· + 1)).map fun i => (eplFactor t i : ℂ)
    let s ← (List.range (n_iter / chunk)).foldlM (rOmegaChunk factor phi n_iter chunk) none
    match s with
    | none => .error .typeError
    | some (_, res) => .ok (z * (1 + res))

/-- lenses/func/epl.py:124-136: the deflection in the frame of the lens. -/
noncomputable def eplFrame (q Rein t : ℝ) (n_iter : ℕ) (chunk_size : Option ℕ) (x y : ℝ) :
    Except PyErr (ℝ × ℝ) := do
  let z : ℂ := ⟨q * x, y⟩
  let r := ‖z‖
  let ro ← rOmega z t q n_iter chunk_size
  if z = 0 then .ok (0, 0)
  else
    let a : ℂ := (2 / (1 + q) * (Rein * Real.sqrt q / r) ^ t : ℝ) * ro
    .ok (a.re, a.im)

/-- lenses/func/epl.py:52-137 `reduced_deflection_angle_epl`. -/
noncomputable def eplDeflection (x0 y0 q phi Rein t : ℝ) (n_iter : ℕ) (chunk_size : Option ℕ)
    (x y : ℝ) : Except PyErr (ℝ × ℝ) := do
  let p := translateRotate x y x0 y0 (some phi)
  let a ← eplFrame q Rein t n_iter chunk_size p.1 p.2
  .ok (derotate a.1 a.2 (some phi))

/-- lenses/func/epl.py:140-215 `potential_epl`. -/
noncomputable def eplPotential (x0 y0 q phi Rein t : ℝ) (n_iter : ℕ) (chunk_size : Option ℕ)
    (x y : ℝ) : Except PyErr ℝ := do
  let a ← eplDeflection x0 y0 q phi Rein t n_iter chunk_size x y
  let a := derotate a.1 a.2 (some (-phi))
  let p := translateRotate x y x0 y0 (some phi)
  .ok ((p.1 * a.1 + p.2 * a.2) / (2 - t))

/-- lenses/func/epl.py:218-287 `convergence_epl`. -/
noncomputable def eplConvergence (x0 y0 q phi Rein t s x y : ℝ) : ℝ :=
  let p := translateRotate x y x0 y0 (some phi)
  let psi := Real.sqrt (q ^ 2 * p.1 ^ 2 + p.2 ^ 2 + s ^ 2)
  (2 - t) / 2 * (Rein * Real.sqrt q / psi) ^ t

end Caustics
