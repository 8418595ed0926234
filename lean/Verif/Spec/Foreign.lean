import Verif.Model.Foreign
import Verif.Spec.Handles

/-!
# `AssignNode` with any node on kept handles

What a client sees of its calls on all the handles it has ever got, `AssignNode` with
any node among them.
-/

namespace Verif.Spec

open Calls

/-- The calls of a client one after the other, whether they return an error or not.
`none`: one of them panicked, or the client never had that handle. -/
def runDeeds (repr : Bool) (grow : Nat → Nat) : Handles.St → List (List Nat × Handles.Deed) → Option Handles.St
  | a, [] => some a
  | a, (h, d) :: r =>
    match Handles.deedAt repr grow h d a with
    | .ok a' => runDeeds repr grow a' r
    | .err _ a' => runDeeds repr grow a' r
    | .panic => none
    | .noHandle => none

/-- A type that is neither a struct nor a list. -/
def Scalar (t : T) : Prop := t.shape = .text ∨ t.shape = .link

/-- A client builds a value and always uses the handle it is to use; then it makes any
calls on any handles, and none of them panics. What `Build` returns has not changed.
The nodes that the client has given whole while building satisfy `P`. -/
def Settled (P : T → Prop) (t : T) (repr : Bool) : Prop :=
  ∀ (grow : Nat → Nat) (cs good : List (Nat × Call)) (f : Frame) (a b : Handles.St) (g : List (List Nat × Call))
    (more : List (List Nat × Handles.Deed)) (v : Val),
    (∀ d u x, (d, Call.assignSelf u x) ∈ cs → Complete u x ∧ P u) → play (fresh t) cs = some (f, good) →
    run repr grow (Handles.builder t) (onCurrent (fresh t) cs) = some (a, g) → Handles.build a = .ok v →
    runDeeds repr grow a more = some b → Handles.build b = .ok v

end Verif.Spec
