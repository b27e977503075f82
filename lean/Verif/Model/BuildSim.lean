import Verif.Model.Py
import Mathlib.Data.List.Basic

/-!
`sims/simulator.py:15-44 build_simulator`: objects from a YAML configuration.

A YAML alias (`*anchor`) makes two places share one Python dict, and the function changes dicts in
place, so the configuration is a heap of dicts and values refer to them by address.  Reading the YAML
file is not modelled.
-/

namespace Caustics

/-- A value in the configuration: a scalar, a dict (by address), a list, or a constructed object (by its
position in the order of construction). -/
inductive YVal where
  | atom (s : String)
  | dict (addr : ℕ)
  | list (l : List YVal)
  | obj (i : ℕ)

/-- Contents of the dicts, in insertion order. -/
abbrev YHeap := ℕ → List (String × YVal)

/-- `d.get(key)`. -/
def dget (d : List (String × YVal)) (key : String) : Option YVal := (d.find? fun p => p.1 = key).map Prod.snd

/-- `d[key] = v`: replaces the value or appends the key. -/
def dset : List (String × YVal) → String → YVal → List (String × YVal)
  | [], key, v => [(key, v)]
  | p :: d, key, v => if p.1 = key then (key, v) :: d else p :: dset d key v

/-- Python's `a == b`.  Dicts are equal if they are the same object or have the same keys with equal
values; constructed objects are equal only if they are the same.  `fuel` bounds the nesting depth
(beyond it Python raises RecursionError; the theorems hold for every bound). -/
def yeq (h : YHeap) : ℕ → YVal → YVal → Bool
  | _, .atom a, .atom b => decide (a = b)
  | _, .obj i, .obj j => decide (i = j)
  | fuel, .dict p, .dict q => decide (p = q) || match fuel with
    | 0 => false
    | fuel + 1 => decide ((h p).length = (h q).length) && (h p).all fun kv =>
      match dget (h q) kv.1 with
      | some w => yeq h fuel kv.2 w
      | none => false
  | 0, .list _, .list _ => false
  | fuel + 1, .list l, .list m => decide (l.length = m.length) && (l.zip m).all fun p => yeq h fuel p.1 p.2
  | _, _, _ => false

/-- A constructed object: its class and the keyword arguments it was called with. -/
structure Built where
  kind : String
  kwargs : List (String × YVal)

/-- What is known of the classes in `caustics`: `none` if there is no such name, otherwise whether the
signature has a parameter `name`. -/
abbrev Classes := String → Option Bool

/-- The inner loop sims/simulator.py:27-32 for one keyword: `entries` are the (name, address) pairs of the
configuration in order, `i` counts them.  Once the argument is an object it is no longer a dict, so the
first equal entry is used. -/
def matchEntry (h : YHeap) (fuel : ℕ) (name : String) (v : YVal) : List (String × ℕ) → ℕ → Option ℕ
  | [], _ => none
  | e :: es, i =>
    if e.1 = name then none
    else match v with
      | .dict _ => if yeq h fuel (.dict e.2) v then some i else matchEntry h fuel name v es (i + 1)
      | _ => matchEntry h fuel name v es (i + 1)

/-- The loop over the keywords, sims/simulator.py:26-32, for a dict in the heap (`{}` has none). -/
def resolveKeys (entries : List (String × ℕ)) (fuel : ℕ) (name : String) (a : ℕ) : List String → YHeap → YHeap
  | [], h => h
  | key :: keys, h =>
    match dget (h a) key with
    | none => resolveKeys entries fuel name a keys h
    | some v => match matchEntry h fuel name v entries 0 with
      | none => resolveKeys entries fuel name a keys h
      | some i => resolveKeys entries fuel name a keys (fun p => if p = a then dset (h a) key (.obj i) else h p)

/-- sims/simulator.py:34-41: the class, the `name` argument and the construction, given the keyword
dict (`none` for the `{}` of `obj.get("init_kwargs", {})`, which belongs to nobody else).  The
constructor call itself is taken to succeed. -/
def construct (cls : Classes) (name : String) (addr : ℕ) (a : Option ℕ) (h : YHeap) : Except PyErr (YHeap × Built) :=
  match dget (h addr) "kind" with
  | none => .error .keyError
  | some (.atom kind) => match cls kind with
    | none => .error .attributeError
    | some hasName => match a with
      | none => .ok (h, ⟨kind, if hasName then [("name", .atom name)] else []⟩)
      | some a =>
        let h2 : YHeap := if hasName then fun p => if p = a then dset (h a) "name" (.atom name) else h p else h
        .ok (h2, ⟨kind, h2 a⟩)
  | some _ => .error .attributeError

/-- One entry, sims/simulator.py:24-41.  Keyword arguments that are not a mapping raise TypeError. -/
def buildEntry (cls : Classes) (entries : List (String × ℕ)) (fuel : ℕ) (name : String) (addr : ℕ) (h : YHeap) :
    Except PyErr (YHeap × Built) :=
  match dget (h addr) "init_kwargs" with
  | none => construct cls name addr none h
  | some (.dict a) => construct cls name addr (some a) (resolveKeys entries fuel name a ((h a).map Prod.fst) h)
  | some _ => .error .typeError

/-- The outer loop. -/
def buildLoop (cls : Classes) (entries : List (String × ℕ)) (fuel : ℕ) :
    List (String × ℕ) → YHeap → List Built → Except PyErr (List Built)
  | [], _, ms => .ok ms
  | e :: es, h, ms => match buildEntry cls entries fuel e.1 e.2 h with
    | .error err => .error err
    | .ok (h', m) => buildLoop cls entries fuel es h' (ms ++ [m])

/-- sims/simulator.py:15-44 `build_simulator`: all constructed objects in order; the last one is
returned. -/
def buildAll (cls : Classes) (entries : List (String × ℕ)) (fuel : ℕ) (h : YHeap) : Except PyErr (List Built) :=
  buildLoop cls entries fuel entries h []

/-- The return value; a configuration without entries raises. -/
def buildSimulator (cls : Classes) (entries : List (String × ℕ)) (fuel : ℕ) (h : YHeap) : Except PyErr Built :=
  match buildAll cls entries fuel h with
  | .error e => .error e
  | .ok ms => match ms.getLast? with
    | none => .error .indexError
    | some m => .ok m

end Caustics
