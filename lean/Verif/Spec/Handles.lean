import Verif.Model.Handles
import Verif.Spec.Calls

/-!
# Calls on any handle

What a client sees of its calls on a builder and on all the handles it has ever got
from it, whether it should still use them or not.
-/

namespace Verif.Spec

open Calls

/-- The calls of a client one after the other, each with the handle it is made on,
whether they return an error or not. `none`: one of them panicked, or the client
never had that handle. Otherwise the builder, and which calls returned no error. -/
def run (repr : Bool) (grow : Nat → Nat) :
    Handles.St → List (List Nat × Call) → Option (Handles.St × List (List Nat × Call))
  | a, [] => some (a, [])
  | a, (h, c) :: r =>
    match Handles.callAt repr grow h c a with
    | .ok a' => (run repr grow a' r).map fun p => (p.1, (h, c) :: p.2)
    | .err _ a' => run repr grow a' r
    | .panic => none
    | .noHandle => none

/-- The calls with the depth of their handle. -/
def depths (cs : List (List Nat × Call)) : List (Nat × Call) := cs.map fun x => (x.1.length, x.2)

/-- No node that is given whole lacks anything. -/
def GivesComplete (cs : List (List Nat × Call)) : Prop :=
  ∀ h u x, (h, Call.assignSelf u x) ∈ cs → Complete u x

/-- Whatever a client does with whatever handles, if no call panics and `Build`
returns a value, then the calls that returned no error spell out that value. -/
def HandlesSafe (t : T) (repr : Bool) : Prop :=
  ∀ (grow : Nat → Nat) (cs good : List (List Nat × Call)) (a : Handles.St) (v : Val),
    GivesComplete cs → run repr grow (Handles.builder t) cs = some (a, good) →
    Handles.build a = .ok v → Makes t v (depths good)

/-- The handle that is to be used for a call `d` levels down: at every level that of
the field or element that was asked for last. -/
def current : Nat → Frame → List Nat
  | 0, _ => []
  | d + 1, a =>
    match a.child with
    | none => []
    | some c => (match a.ty.shape with | .struct _ => a.f | _ => 0) :: current d c

/-- The calls of `Verif.Model.Calls`, which say only how many levels down they are
made, each with the handle that is to be used for it at that moment. -/
def onCurrent : Frame → List (Nat × Call) → List (List Nat × Call)
  | _, [] => []
  | a, (d, c) :: r => (current d a, c) ::
    match a.callAt d c with
    | .ok a' => onCurrent a' r
    | .err _ a' => onCurrent a' r
    | _ => []

/-- Once `Build` has returned a value to a client that has always used the handle it
was to use, no calls on whatever handles change what `Build` returns, as long as
none of them panics. -/
def BuiltLasts (t : T) (repr : Bool) : Prop :=
  ∀ (grow : Nat → Nat) (cs good : List (Nat × Call)) (f : Frame) (a b : Handles.St) (g more g' : List (List Nat × Call))
    (v : Val), (∀ d u x, (d, Call.assignSelf u x) ∈ cs → Complete u x) → play (fresh t) cs = some (f, good) →
    run repr grow (Handles.builder t) (onCurrent (fresh t) cs) = some (a, g) → Handles.build a = .ok v →
    run repr grow a more = some (b, g') → Handles.build b = .ok v

end Verif.Spec
