import Verif.Spec.Shown
import Verif.Model.TreeForeign

/-!
# Specification: what a node makes of a new tree builder
-/

namespace Verif.Spec

open Calls Handles

/-- A new tree builder has no map to put entries in. -/
def treeTaken : Nd → Res Tree
  | .map .nil => .ok ⟨[], []⟩
  | .map (.cons _ _ _) => .panic
  | .own _ _ n => treeTaken n
  | _ => .err .wrongKind

/-- A new tree builder that is given a node, and `Build`. -/
def giveTree (repr : Bool) (grow : Nat → Nat) (d : TreeDeed) : Res Tree :=
  match TreeSt.fresh.deedAt repr grow 0 [] d with
  | .ok s => s.build
  | .err e _ => .err e
  | .panic => .panic
  | .noHandle => .panic

end Verif.Spec
