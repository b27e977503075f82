import Verif.Model.Py
import Mathlib.Algebra.Order.Field.Basic
import Mathlib.Algebra.BigOperators.Group.List.Basic

/-! Starting centres for clustering, `utils.py:1486-1529`. -/

namespace Caustics

variable {K : Type*} [Field K] [LinearOrder K]

/-- Squared distance, `sum((a - b) ** 2, -1)`. -/
def pointDist2 (a b : List K) : K := (List.zipWith (fun u v => (u - v) ^ 2) a b).sum

/-- utils.py:1510-1512: the points whose position is not in the list, in order. -/
def unselected (xs : List (List K)) (idxs : List ℕ) : List (List K) :=
  (xs.zipIdx.filter fun p => decide (p.2 ∉ idxs)).map Prod.fst

/-- utils.py:1515-1522: squared distance to the closest mean. -/
def closest2 (x : List K) : List (List K) → K
  | [] => 0
  | m :: ms => ms.foldl (fun acc m' => min acc (pointDist2 x m')) (pointDist2 x m)

/-- `argmax`: position of the first largest value, `none` (an error) for an empty array. -/
def argmaxFirst : List K → Option ℕ
  | [] => none
  | a :: l => match argmaxFirst l with
    | none => some 0
    | some i => if l.getD i 0 ≤ a then some 0 else some (i + 1)

/-- One pass of the loop, utils.py:1509-1527: `mean_idxs` and `means`.  Stacking no points raises. -/
def clusterStep (xs : List (List K)) (s : List ℕ × List (List K)) : Except PyErr (List ℕ × List (List K)) :=
  let u := unselected xs s.1
  match argmaxFirst (u.map fun x => closest2 x s.2) with
  | none => .error .valueError
  | some i => .ok (s.1 ++ [i], s.2 ++ [u.getD i []])

/-- The loop. -/
def clusterLoop (xs : List (List K)) : ℕ → List ℕ × List (List K) → Except PyErr (List ℕ × List (List K))
  | 0, s => .ok s
  | n + 1, s => match clusterStep xs s with
    | .ok s' => clusterLoop xs n s'
    | .error e => .error e

/-- utils.py:1486-1529 `cluster_means`; `r` is the random index of the first centre, from `randint(high=b)`.
An empty data set raises. -/
def clusterMeans (xs : List (List K)) (k r : ℕ) : Except PyErr (List (List K)) :=
  match xs[r]? with
  | none => .error .indexError
  | some x => match clusterLoop xs (k - 1) ([r], [x]) with
    | .ok s => .ok s.2
    | .error e => .error e

end Caustics
