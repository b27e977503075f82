import Verif.Model.Chunk

/-! Vocabulary for stating what a batched call means. -/

namespace Caustics

/-- The positional arguments seen by batch element `j`: shared values as they are, batched
values indexed at `j`. -/
def rowOf {V : Type} (args : List (Arg V)) (j : Nat) : List V :=
  args.filterMap fun a =>
    match a with
    | .shared v => some v
    | .batched vs => vs[j]?

/-- All batched arguments have length `B` and at least one argument is batched. -/
def BatchOf {V : Type} (B : Nat) (args : List (Arg V)) : Prop :=
  (∃ vs, Arg.batched vs ∈ args) ∧ ∀ vs, Arg.batched vs ∈ args → vs.length = B

/-- The data a chunk holds for argument position `k`. -/
def columnOf {V : Type} (k : Nat) (chunk : List (Arg V)) : List V :=
  match chunk[k]? with
  | some (.batched vs) => vs
  | _ => []

end Caustics
