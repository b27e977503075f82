import Verif.Model.BuildSim

/-! Well formed configurations for `build_simulator`, and what should be constructed from them. -/

namespace Caustics

/-- A configuration in which entries can be told apart.  `kw` gives the address of the keyword dict of an
entry, if it has one, and `kind` its class. -/
structure WellFormed (cls : Classes) (entries : List (String × ℕ)) (h : YHeap) (kw : ℕ → Option ℕ) (kind : ℕ → String) :
    Prop where
  /-- keys of a mapping are distinct -/
  names : (entries.map Prod.fst).Nodup
  /-- no entry is an alias of another -/
  addrs : (entries.map Prod.snd).Nodup
  keys : ∀ e ∈ entries, ((h e.2).map Prod.fst).Nodup
  /-- every entry names a class with a `name` parameter (all of caustics' lenses, light profiles,
  cosmologies and simulators have one) -/
  kind_eq : ∀ e ∈ entries, dget (h e.2) "kind" = some (.atom (kind e.2)) ∧ cls (kind e.2) = some true
  kw_eq : ∀ e ∈ entries, dget (h e.2) "init_kwargs" = (kw e.2).map .dict
  /-- keyword dicts are not shared and are not entries -/
  own : ∀ e ∈ entries, ∀ e' ∈ entries, ∀ a, kw e.2 = some a → kw e'.2 = some a → e = e'
  sep : ∀ e ∈ entries, ∀ e' ∈ entries, kw e.2 ≠ some e'.2
  args : ∀ e ∈ entries, ∀ a, kw e.2 = some a → ((h a).map Prod.fst).Nodup ∧ "name" ∉ (h a).map Prod.fst
  /-- a dict given as an argument is an alias of an entry or has no `kind` -/
  refs : ∀ e ∈ entries, ∀ a, kw e.2 = some a → ∀ k p, (k, YVal.dict p) ∈ h a →
    (∃ e' ∈ entries, e'.2 = p) ∨ (dget (h p) "kind" = none ∧ ∀ e' ∈ entries, kw e'.2 ≠ some p)
  /-- entries without keyword arguments differ in some scalar -/
  plain : ∀ e ∈ entries, ∀ e' ∈ entries, e ≠ e' → kw e.2 = none → kw e'.2 = none →
    ∃ key s, (key, YVal.atom s) ∈ h e.2 ∧ dget (h e'.2) key ≠ some (.atom s)

/-- The value an argument should become, when `pre` are the entries before: the object built for the
entry it is an alias of, or itself. -/
def resolved (pre : List (String × ℕ)) (v : YVal) : YVal :=
  match v with
  | .dict p => match pre.findIdx? fun e => decide (e.2 = p) with
    | some j => .obj j
    | none => .dict p
  | v => v

/-- The call an entry should lead to. -/
def expectedCall (h : YHeap) (kw : ℕ → Option ℕ) (kind : ℕ → String) (pre : List (String × ℕ)) (e : String × ℕ) : Built :=
  ⟨kind e.2, (match kw e.2 with
    | none => []
    | some a => (h a).map fun kv => (kv.1, resolved pre kv.2)) ++ [("name", .atom e.1)]⟩

end Caustics
