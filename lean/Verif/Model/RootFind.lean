import Verif.Model.LM
import Verif.Model.Triangle

/-!
`forward_raytrace_rootfind` (lenses/func/base.py:105-160) and `forward_raytrace` with this root finder.
-/

namespace Caustics

/-- A point as a parameter vector. -/
def vecOf (p : ℝ × ℝ) : Fin 2 → ℝ := ![p.1, p.2]

/-- lenses/func/base.py:105-160: `batch_lm` with its default settings (utils.py:1586-1593) on the batch
of starting points, every problem with target `s` and unit covariance.  `jac` is what
`backend.jacfwd` computes of the lens map.  `none`: `linalg.solve` raises. -/
noncomputable def forwardRaytraceRootfind (raytrace : ℝ × ℝ → ℝ × ℝ)
    (jac : (Fin 2 → ℝ) → Matrix (Fin 2) (Fin 2) ℝ) (s : ℝ × ℝ) (l : List (ℝ × ℝ)) :
    Option (List (ℝ × ℝ)) :=
  (batchLm (B := l.length) (fun x => vecOf (raytrace (x 0, x 1))) jac 9 11 (1 / 10) (1 / 10 ^ 9)
    (10 ^ 9) (1 / 10 ^ 4) 50 (fun b => vecOf l[b]) (fun _ => vecOf s)
    (fun _ => .diag fun _ => 1) 1).map fun r => List.ofFn fun b => (r.1 b 0, r.1 b 1)

/-- lenses/base.py:140-208 (with `x0`, `y0` given): `forward_raytrace` with
`forward_raytrace_rootfind`.  When the linear solve in it raises, this model continues with no points;
the theorems show that it does not raise. -/
noncomputable def lensForwardRaytrace (s : ℝ × ℝ) (raytrace : ℝ × ℝ → ℝ × ℝ)
    (jac : (Fin 2 → ℝ) → Matrix (Fin 2) (Fin 2) ℝ) (x0 y0 fov : ℝ) (divisions : ℕ) (epsilon : ℝ)
    (max_depth : ℕ) : Except PyErr (List (ℝ × ℝ)) :=
  forwardRaytrace s raytrace (fun l => (forwardRaytraceRootfind raytrace jac s l).getD []) x0 y0 fov
    divisions epsilon max_depth

end Caustics
