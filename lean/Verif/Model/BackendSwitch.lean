import Verif.Model.Py

/-! `backend_obj.py:16-165`: choosing the array library (`caustics.backend.backend = ...`). -/

namespace Caustics

/-- The array library a helper calls. -/
inductive ArrLib
  | torch
  | jax
  deriving DecidableEq

/-- The value of `backend.backend` that goes with a library. -/
def ArrLib.name : ArrLib → String
  | .torch => "torch"
  | .jax => "jax"

/-- The instance attributes set by `setup_torch`, backend_obj.py:42-99, in order (`LinAlgErr`, which is not
a function, included; `_array_type` is the function behind the property `array_type`). -/
def torchNames : List String :=
  ["make_array", "_array_type", "concatenate", "copy", "tolist", "view", "as_array", "to",
   "to_numpy", "gammaln", "logit", "sigmoid", "repeat", "stack", "transpose", "upsample2d", "pad",
   "roll", "clamp", "flatten", "conv2d", "mean", "std", "sum", "max", "min", "topk", "bessel_j1",
   "lgamma", "hessian", "jacobian", "jacfwd", "grad", "vmap", "long", "fill_at_indices",
   "add_at_indices", "and_at_indices", "unsqueeze", "cat", "gradient", "detach", "avg_pool2d",
   "rand", "randn", "randint", "split_key", "meshgrid", "device", "numel", "Size", "chunk", "jit",
   "norm", "arange", "linspace",
   "LinAlgErr"]

/-- The instance attributes set by `setup_jax`, backend_obj.py:101-164 (besides `jax` and `key`). -/
def jaxNames : List String :=
  ["make_array", "_array_type", "concatenate", "copy", "tolist", "view", "as_array", "to",
   "to_numpy", "gammaln", "logit", "sigmoid", "repeat", "stack", "transpose", "upsample2d", "pad",
   "roll", "clamp", "flatten", "conv2d", "mean", "std", "sum", "max", "min", "topk", "bessel_j1",
   "lgamma", "hessian", "jacobian", "jacfwd", "grad", "vmap", "long", "fill_at_indices",
   "add_at_indices", "and_at_indices", "unsqueeze", "cat", "gradient", "detach", "avg_pool2d",
   "rand", "randn", "randint", "split_key", "meshgrid", "device", "numel", "Size", "chunk", "jit",
   "norm", "arange", "linspace",
   "LinAlgErr"]

/-- What can be observed of the two `backend` objects.  `module` is `caustics.backend.module`, `helper n` the
library used by `caustics.backend.n`, `name` is `caustics.backend.backend`, `ck` is
`caskade.backend.backend`. -/
structure BackState where
  module : Option ArrLib
  helper : String → Option ArrLib
  hasKey : Bool
  name : Option String
  ck : String

/-- `self.n = self._n_lib` for each `n` of the list. -/
def setHelpers (names : List String) (l : ArrLib) (h : String → Option ArrLib) : String → Option ArrLib :=
  names.foldl (fun h n => fun m => if m = n then some l else h m) h

/-- backend_obj.py:32-40 `_load_backend`, with `setup_torch` (42-99) and `setup_jax` (101-164); both libraries
are assumed installed. -/
def loadBackend (s : BackState) (b : String) : Except PyErr Unit × BackState :=
  if b = "torch" then
    (.ok (), { s with module := some .torch, helper := setHelpers torchNames .torch s.helper })
  else if b = "jax" then
    (.ok (), { s with module := some .jax, helper := setHelpers jaxNames .jax s.helper, hasKey := true })
  else (.error .valueError, s)

/-- backend_obj.py:24-30, the setter of `Backend.backend`.  `env` is the environment variable
`CASKADE_BACKEND`; `ckOk b` tells whether `caskade.backend.backend = b` is accepted (otherwise it raises
`ValueError` and changes nothing).  The second component is the state after the statement, also if it
raised. -/
def setBackend (env : Option String) (ckOk : String → Bool) (s : BackState) (b : Option String) :
    Except PyErr Unit × BackState :=
  let b := b.getD (env.getD s.ck)
  if ckOk b then
    let s := { s with ck := b }
    match loadBackend s b with
    | (.ok (), s) => (.ok (), { s with name := some b })
    | (.error e, s) => (.error e, s)
  else (.error .valueError, s)

/-- backend_obj.py:17-18 and 807, `backend = Backend()` when caustics is imported; caskade has chosen `ck0`. -/
def importBackend (env : Option String) (ckOk : String → Bool) (ck0 : String) : Except PyErr Unit × BackState :=
  setBackend env ckOk { module := none, helper := fun _ => none, hasKey := false, name := none, ck := ck0 } none

/-- A program that assigns to `backend.backend` any number of times, catching exceptions. -/
def runSwitches (env : Option String) (ckOk : String → Bool) (s : BackState) (bs : List (Option String)) :
    BackState :=
  bs.foldl (fun s b => (setBackend env ckOk s b).2) s

end Caustics
