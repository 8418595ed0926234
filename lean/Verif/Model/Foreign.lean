import Verif.Model.Handles

/-!
# `AssignNode` with any node on any handle (`/repo/ipldsch_satisfaction.go`)

`Verif.Model.Handles` has `AssignNode` only with a node of the assembler's own type.
Given any other node, the assembler of a struct goes through the entries of the node
and uses its own key and value assemblers, and the assembler of a list goes through
the elements. It does so without `BeginMap` or `BeginList`, so without looking at the
mark, and whether or not the client has ever got the map or list assembler.

Simplified:
* Iterators of nodes return no errors, and the keys of a map are strings.
* The assemblers that `AssignNode` uses on its way count as given to the client from
  then on, though the client has not got them: the model allows the client more.
* `keyAssign` and the others are as in `Handles`.
-/

namespace Verif.Handles

open Verif.Calls

mutual

/-- A node, as `AssignNode` sees it. `own` is a node of a type of the package; it has
as well the kind and the contents that any node has. `other` is one of a kind that no
assembler here accepts. -/
inductive Nd where
  | null
  | text (b : Bytes)
  | link (l : Link)
  | other
  | list (ns : Nds)
  | map (es : Ents)
  | own (t : T) (v : Val) (view : Nd)

/-- The elements of a list. -/
inductive Nds where
  | nil
  | cons (n : Nd) (r : Nds)

/-- The entries of a map in the order of its iterator. -/
inductive Ents where
  | nil
  | cons (k : Bytes) (n : Nd) (r : Ents)

end

/-- What an assembler does with the one it contains at `i`. -/
def withKid (act : St → Out) (a : St) (i : Nat) : Out :=
  match kid a i with
  | none => .noHandle
  | some k =>
    match act k with
    | .ok k => .ok (putBack a i k)
    | .err e k => .err e (putBack a i k)
    | .panic => .panic
    | .noHandle => .noHandle

/-- Going on if there was no error. -/
def Out.andThen (o : Out) (f : St → Out) : Out :=
  match o with
  | .ok a => f a
  | o => o

mutual

/-- `AssignNode`: structs 563-600, lists 2264-2295, scalars 4298-4317. A node of the
assembler's own type goes to `assignSelf`; scalars take what `AsString` or `AsLink`
returns. -/
def assignNd (repr : Bool) (grow : Nat → Nat) : Nd → St → Out
  | .null, a => assignNull a
  | .own t v n, a => if t = a.obj.ty then assignSelf t v a else assignNd repr grow n a
  | .text b, a =>
    match a.obj.ty.shape with
    | .text => assignString b a
    | _ => .err .wrongKind a
  | .link l, a =>
    match a.obj.ty.shape with
    | .link => assignLink l a
    | _ => .err .wrongKind a
  | .other, a => .err .wrongKind a
  | .list ns, a =>
    match a.obj.ty.shape with
    | .list _ => assignNds repr grow ns a
    | _ => .err .wrongKind a
  | .map es, a =>
    match a.obj.ty.shape with
    | .struct _ => assignEnts repr grow es a
    | _ => .err .wrongKind a

/-- The loop over the elements and `Finish`, 2286-2296. -/
def assignNds (repr : Bool) (grow : Nat → Nat) : Nds → St → Out
  | .nil, a => finish repr a
  | .cons n r, a =>
    ((assembleValue repr grow a).andThen fun a => withKid (assignNd repr grow n) a 0).andThen
      fun a => assignNds repr grow r a

/-- The loop over the entries and `Finish`, 587-600. -/
def assignEnts (repr : Bool) (grow : Nat → Nat) : Ents → St → Out
  | .nil, a => finish repr a
  | .cons k n r, a =>
    ((((assembleKey repr a).andThen fun a => keyAssign k a).andThen fun a => assembleValue repr grow a).andThen
      fun a => withKid (assignNd repr grow n) a a.obj.f).andThen fun a => assignEnts repr grow r a

end

/-- `AssignNode` on a handle that the client has. -/
def assign (repr : Bool) (grow : Nat → Nat) (n : Nd) (a : St) : Out :=
  if a.obj.given then assignNd repr grow n a else .noHandle

/-- `AssignNode` on any handle. -/
def assignAt (repr : Bool) (grow : Nat → Nat) (n : Nd) : List Nat → St → Out
  | [], a => assign repr grow n a
  | i :: h, a => withKid (assignAt repr grow n h) a i

/-- One of the other calls, or `AssignNode`. -/
inductive Deed where
  | call (c : Call)
  | node (n : Nd)

/-- A call on any handle. -/
def deedAt (repr : Bool) (grow : Nat → Nat) (h : List Nat) : Deed → St → Out
  | .call c, a => callAt repr grow h c a
  | .node n, a => assignAt repr grow n h a

end Verif.Handles
