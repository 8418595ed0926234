import Verif.Model.TreeReset
import Verif.Spec.TreeForeign

/-!
# What clients do with a tree builder that they reset
-/

namespace Verif.Spec

open Calls Handles

/-- Something that a client does with a tree builder. -/
inductive TreeAct where
  | call (h : List Nat) (d : TreeDeed)
  | reset

/-- As `acts`, for tree builders. -/
def actsTree (repr : Bool) (grow : Nat → Nat) (hint : Int) :
    TreeBuilder → List TreeAct → Option (TreeBuilder × List TreeAct)
  | b, [] => some (b, [])
  | b, .reset :: r => (actsTree repr grow hint b.reset r).map fun p => (p.1, .reset :: p.2)
  | b, .call h d :: r =>
    match b.deedAt repr grow hint h d with
    | .ok s => (actsTree repr grow hint ⟨b.begun, s⟩ r).map fun p => (p.1, .call h d :: p.2)
    | .err _ s => actsTree repr grow hint ⟨b.begun, s⟩ r
    | .panic => none
    | .noHandle => none

end Verif.Spec
