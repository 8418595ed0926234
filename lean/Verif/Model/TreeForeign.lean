import Verif.Model.Foreign
import Verif.Model.TreeHandles

/-!
# `AssignNode` with any node on the handles of a tree builder
(`/repo/ipldsch_satisfaction.go`)

`Verif.Model.TreeHandles` leaves out `AssignNode` on the tree assembler. Given a tree,
that copies the struct `_Tree`, so the slice and the map of the builder's tree are from
then on those of the given one. Given any other map it makes rows with its own key and
value assemblers, without `BeginMap`.

Simplified as in `Verif.Model.Foreign`, and:
* The table and the map of a given tree are in memory that nothing points to before.
  The entries that the map shows are apart from the rows, since nothing here writes to
  either. A given tree has a map, be it empty.
* Once it has given a tree, the client may use the map assembler, though it has not
  got it: the model allows the client more.
* A tree that is given to one of the other assemblers is a map like any other.
-/

namespace Verif.Handles

open Verif.Calls

/-- Going on if there was no error. -/
def TreeRes.andThen (o : TreeRes) (f : TreeSt → TreeRes) : TreeRes :=
  match o with
  | .ok s => f s
  | o => o

/-- Something that `AssignNode` on a tree builder is given, or one of the other calls.
`room`: how many more rows the array behind the given table has room for. -/
inductive TreeDeed where
  | call (c : Call)
  | node (n : Nd)
  | tree (t : Tree) (room : Nat)

namespace TreeSt

/-- What becomes of the tree assembler when something is done with the entry assembler. -/
def withEntry (act : St → Out) (s : TreeSt) : TreeRes :=
  match act ⟨s.mem, s.cm, s.va⟩ with
  | .ok a => .ok { s with mem := a.mem, cm := a.mark, va := a.obj }
  | .err e a => .err e { s with mem := a.mem, cm := a.mark, va := a.obj }
  | .panic => .panic
  | .noHandle => .noHandle

/-- The loop over the entries and `Finish`, 6984-6997, 7318-7331. -/
def assignRows (repr : Bool) (grow : Nat → Nat) : Ents → TreeSt → TreeRes
  | .nil, s => s.finish
  | .cons k n r, s =>
    ((((s.assembleKey grow).andThen fun s => s.keyAssign k).andThen fun s => s.assembleValue).andThen
      fun s => s.withEntry (assignNd repr grow n)).andThen fun s => assignRows repr grow r s

/-- `AssignNode` with a node that is no tree of the package, 6966-6998, 7300-7332. -/
def assignNode (repr : Bool) (grow : Nat → Nat) : Nd → TreeSt → TreeRes
  | .null, s => if s.mark = .absent then .err .wrongKind s else .panic
  | .own _ _ n, s => assignNode repr grow n s
  | .map es, s => s.assignRows repr grow es
  | _, s => .err .wrongKind s

/-- Pointers to the entries that the map of a given tree shows. -/
def given (r : Nat) : Nat → List (Bytes × TreeEntry) → List (Bytes × Ptr)
  | _, [] => []
  | i, x :: l => (x.1, (r, [i])) :: given r (i + 1) l

/-- `AssignNode` with a tree of the package, 6970-6980, 7304-7314. -/
def assignTree (t : Tree) (room : Nat) (s : TreeSt) : TreeRes :=
  if s.mark = .absent then
    .ok { s with
      mem := (s.mem.alloc (.arr (t.t.map rowM))).alloc (.arr (t.m.map fun x => entryM x.2))
      mark := .value
      tab := ⟨s.mem.next, t.t.length, t.t.length + room⟩
      map := some (given (s.mem.next + 1) 0 t.m) }
  else .panic

/-- A call on any handle, as in `TreeHandles`. -/
def deedAt (repr : Bool) (grow : Nat → Nat) (hint : Int) (h : List Nat) (d : TreeDeed) (s : TreeSt) : TreeRes :=
  match d, h with
  | .call c, h => s.callAt repr grow hint h c
  | .node n, [] => s.assignNode repr grow n
  | .node n, 0 :: h => s.withEntry (assignAt repr grow n h)
  | .tree t room, [] => s.assignTree t room
  | _, _ => .noHandle

end TreeSt

end Verif.Handles
