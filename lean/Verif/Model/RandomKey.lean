import Verif.Model.BackendSwitch
import Verif.Model.Microlens
import Verif.Model.ClusterMeans

/-! Random numbers: `rand`, `randn`, `randint`, `split_key` of `backend_obj.py:523-565` and the two places
that use them. -/

namespace Caustics

/-- A jax random key.  `jax.random.split` is modelled as a free operation: keys obtained along different
paths of splits are different (jax hashes; collisions are not modelled). -/
inductive RKey where
  | seed (n : ℕ)
  | fst (k : RKey)
  | snd (k : RKey)
  deriving DecidableEq

/-- backend_obj.py:564-565 / `jax.random.split(key)`. -/
def RKey.split (k : RKey) : RKey × RKey := (k.fst, k.snd)

/-- What the numbers of one draw are a function of: a jax key, or how far torch's global generator has been
advanced. -/
inductive RSrc where
  | key (k : RKey)
  | gen (n : ℕ)
  deriving DecidableEq

/-- The library in use, `backend.key` (jax) and the number of draws from torch's generator so far. -/
structure RState where
  lib : ArrLib
  key : RKey
  pos : ℕ

/-- What `rand`, `randn` and `randint` have in common, backend_obj.py:523-557: torch ignores `key`; jax
splits `self.key` and keeps the first half if no key is given, and uses the given key otherwise. -/
def drawFrom (key : Option RKey) (s : RState) : RSrc × RState :=
  match s.lib with
  | .torch => (.gen s.pos, { s with pos := s.pos + 1 })
  | .jax => match key with
    | none => let (k1, k2) := s.key.split
              (.key k2, { s with key := k1 })
    | some k => (.key k, s)

/-- backend_obj.py:559-565 `split_key`. -/
def splitKey (s : RState) (k : RKey) : Except PyErr (RKey × RKey) :=
  match s.lib with
  | .torch => .error .notImplemented
  | .jax => .ok k.split

/-- The numbers drawn: uniform numbers in an array of `n`, and an index below `b`. -/
structure RValues where
  unif : RSrc → ℕ → List ℝ
  index : RSrc → ℕ → ℕ

/-- A draw and whether the user supplied its key. -/
structure RDraw where
  src : RSrc
  user : Bool
  deriving DecidableEq

/-- sims/microlens.py:60-120 with its draws (98-105): result, state afterwards and draws made. -/
noncomputable def microlensRun (V : RValues) (raytrace : ℝ → ℝ → ℝ × ℝ) (brightness : ℝ → ℝ → ℝ) (fov : Fov)
    (method : String) (nMcmc nGrid : ℕ) (key : Option RKey) (s : RState) :
    Except PyErr (ℝ × ℝ) × RState × List RDraw :=
  if method = "mcmc" then
    let keys : Except PyErr (Option RKey × Option RKey) := match key with
      | some k => match splitKey s k with
        | .ok (kx, ky) => .ok (some kx, some ky)
        | .error e => .error e
      | none => .ok (none, none)
    match keys with
    | .error e => (.error e, s, [])
    | .ok (kx, ky) =>
      let (a, s1) := drawFrom kx s
      let (b, s2) := drawFrom ky s1
      (microlens raytrace brightness fov method (V.unif a nMcmc) (V.unif b nMcmc) nGrid, s2,
        [⟨a, key.isSome⟩, ⟨b, key.isSome⟩])
  else (microlens raytrace brightness fov method [] [] nGrid, s, [])

/-- utils.py:1486-1529 with its draw (1505-1507). -/
def clusterRun {K : Type*} [Field K] [LinearOrder K] (V : RValues) (xs : List (List K)) (k : ℕ)
    (key : Option RKey) (s : RState) : Except PyErr (List (List K)) × RState × List RDraw :=
  let (a, s1) := drawFrom key s
  (clusterMeans xs k (V.index a xs.length), s1, [⟨a, key.isSome⟩])

/-- A call that may draw. -/
inductive RCall where
  | microlens (raytrace : ℝ → ℝ → ℝ × ℝ) (brightness : ℝ → ℝ → ℝ) (fov : Fov) (method : String)
      (nMcmc nGrid : ℕ) (key : Option RKey)
  | cluster (xs : List (List ℝ)) (k : ℕ) (key : Option RKey)
  /-- `backend.rand`, `backend.randn` or `backend.randint` called directly. -/
  | draw (key : Option RKey)

/-- State afterwards and draws made by one call. -/
noncomputable def RCall.step (V : RValues) : RCall → RState → RState × List RDraw
  | .microlens rt br fov m n g key, s => (microlensRun V rt br fov m n g key s).2
  | .cluster xs k key, s => (clusterRun V xs k key s).2
  | .draw key, s => ((drawFrom key s).2, [⟨(drawFrom key s).1, key.isSome⟩])

/-- All draws made by a program. -/
noncomputable def runCalls (V : RValues) : List RCall → RState → List RDraw
  | [], _ => []
  | c :: cs, s => (c.step V s).2 ++ runCalls V cs (c.step V s).1

end Caustics
