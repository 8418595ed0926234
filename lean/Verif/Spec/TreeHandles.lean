import Verif.Model.TreeHandles
import Verif.Spec.Handles
import Verif.Spec.TreePlay

/-!
# Calls on any handle of a tree builder
-/

namespace Verif.Spec

open Verif Calls Handles

/-- As `run`, for tree builders. -/
def runTree (repr : Bool) (grow : Nat → Nat) (hint : Int) :
    TreeSt → List (List Nat × Call) → Option (TreeSt × List (List Nat × Call))
  | s, [] => some (s, [])
  | s, (h, c) :: r =>
    match s.callAt repr grow hint h c with
    | .ok s' => (runTree repr grow hint s' r).map fun p => (p.1, (h, c) :: p.2)
    | .err _ s' => runTree repr grow hint s' r
    | .panic => none
    | .noHandle => none

/-- The handle that is to be used for a call `d` levels down. -/
def treeCurrent (d : Nat) (a : TreeFrame) : List Nat :=
  match d, a.child with
  | d + 1, some c => 0 :: current d c
  | _, _ => []

/-- As `onCurrent`, for tree builders. -/
def onCurrentTree (pol : TreeAsm → Nat) (hint : Int) : TreeFrame → List (Nat × Call) → List (List Nat × Call)
  | _, [] => []
  | a, (d, c) :: r => (treeCurrent d a, c) ::
    match a.callAt pol hint d c with
    | .ok a' => onCurrentTree pol hint a' r
    | .err _ a' => onCurrentTree pol hint a' r
    | _ => []

/-- As `HandlesSafe`, for tree builders. -/
def TreeHandlesSafe (repr : Bool) : Prop :=
  ∀ (grow : Nat → Nat) (hint : Int) (cs good : List (List Nat × Call)) (s : TreeSt) (t : Tree),
    GivesComplete cs → runTree repr grow hint .fresh cs = some (s, good) → s.build = .ok t →
    MakesTree t.t (depths good)

/-- As `BuiltLasts`, for tree builders. -/
def TreeLasts (repr : Bool) : Prop :=
  ∀ (grow : Nat → Nat) (hint : Int) (cs good : List (Nat × Call)) (f : TreeFrame) (s s' : TreeSt)
    (g more g' : List (List Nat × Call)) (t : Tree),
    (∀ d u x, (d, Call.assignSelf u x) ∈ cs → Complete u x) →
    playTree (fun _ => 0) hint .fresh cs = some (f, good) →
    runTree repr grow hint .fresh (onCurrentTree (fun _ => 0) hint .fresh cs) = some (s, g) → s.build = .ok t →
    runTree repr grow hint s more = some (s', g') → s'.build = .ok t

end Verif.Spec
