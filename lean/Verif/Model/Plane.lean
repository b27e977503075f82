import Verif.Model.Chunk
import Mathlib.Algebra.Group.Prod

/-!
Superposition of thin lenses in one plane: `lenses/singleplane.py`,
`lenses/batchedplane.py`, and of light: `light/light_stack.py`.
-/

namespace Caustics

/-- The lensing quantities of a thin lens at a position (the methods
`reduced_deflection_angle`, `convergence`, `potential` of `lenses/base.py:593-790`). -/
structure LensFn (K : Type) where
  deflection : K → K → K × K
  convergence : K → K → K
  potential : K → K → K

variable {K : Type} [AddCommMonoid K]

/-- singleplane.py:92-98: start from zeros, add the members' deflections one by one. -/
def singlePlaneDeflection (lenses : List (LensFn K)) (x y : K) : K × K :=
  lenses.foldl (fun acc l => (acc.1 + (l.deflection x y).1, acc.2 + (l.deflection x y).2)) (0, 0)

/-- singleplane.py:130-134. -/
def singlePlaneConvergence (lenses : List (LensFn K)) (x y : K) : K :=
  lenses.foldl (fun acc l => acc + l.convergence x y) 0

/-- singleplane.py:166-170. -/
def singlePlanePotential (lenses : List (LensFn K)) (x y : K) : K :=
  lenses.foldl (fun acc l => acc + l.potential x y) 0

/-- singleplane.py: the composite as a lens again (so planes can be nested). -/
def singlePlane (lenses : List (LensFn K)) : LensFn K where
  deflection := singlePlaneDeflection lenses
  convergence := singlePlaneConvergence lenses
  potential := singlePlanePotential lenses

/-- batchedplane.py:97-106: `vmap_reduce` of the member lens over the batched parameters;
`x`, `y` are passed as shared arguments (`in_dims = (None, None) + lens_dims`), so they are
closed over here. -/
def batchedPlaneDeflection {V : Type} (b : Backend) (lens : List V → LensFn K)
    (chunkSize : Option Nat) (params : List (Arg V)) (x y : K) : Option (K × K) :=
  vmapReduce b (fun p => (lens p).deflection x y) chunkSize params

/-- batchedplane.py:140-145. -/
def batchedPlaneConvergence {V : Type} (b : Backend) (lens : List V → LensFn K)
    (chunkSize : Option Nat) (params : List (Arg V)) (x y : K) : Option K :=
  vmapReduce b (fun p => (lens p).convergence x y) chunkSize params

/-- batchedplane.py:179-184. -/
def batchedPlanePotential {V : Type} (b : Backend) (lens : List V → LensFn K)
    (chunkSize : Option Nat) (params : List (Arg V)) (x y : K) : Option K :=
  vmapReduce b (fun p => (lens p).potential x y) chunkSize params

/-- light_stack.py:81-84: start from zeros, add the member brightnesses one by one. -/
def lightStackBrightness (models : List (K → K → K)) (x y : K) : K :=
  models.foldl (fun acc m => acc + m x y) 0

end Caustics
