import Verif.Model.Reset
import Verif.Spec.Handles

/-!
# What clients do with a builder that they reset
-/

namespace Verif.Spec

open Calls Handles

/-- Something that a client does with a builder. -/
inductive Act where
  | call (h : List Nat) (d : Deed)
  | reset

/-- One thing after the other, whether calls return an error or not. `none`: a call
panicked, or the client never had that handle. Otherwise the builder, and what
returned no error. -/
def acts (repr : Bool) (grow : Nat → Nat) : St → List Act → Option (St × List Act)
  | a, [] => some (a, [])
  | a, .reset :: r => (acts repr grow (Handles.reset a) r).map fun p => (p.1, .reset :: p.2)
  | a, .call h d :: r =>
    match deedAfter repr grow h d a with
    | .ok a' => (acts repr grow a' r).map fun p => (p.1, .call h d :: p.2)
    | .err _ a' => acts repr grow a' r
    | .panic => none
    | .noHandle => none

/-- What the node with the given pointer shows. -/
def shown (t : T) (p : Ptr) (μ : Mem) : Val := load (rank t) t μ (μ.read p)

end Verif.Spec
