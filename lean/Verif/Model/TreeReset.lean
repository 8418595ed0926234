import Verif.Model.Reset
import Verif.Model.TreeForeign

/-!
# `Reset` of tree builders (`/repo/ipldsch_satisfaction.go`)

As `Verif.Model.Reset`, for the builders of trees (6895-6899, 7229-7233). After
`Reset` the map and the table are nil, while the client may still have the map
assembler from an earlier `BeginMap`, which is the builder itself. Reading a nil map
finds nothing, writing to it panics.
-/

namespace Verif.Handles

open Verif.Calls

/-- A tree builder that may have been reset. `begun`: the client has the map
assembler from before. -/
structure TreeBuilder where
  begun : Bool
  st : TreeSt

namespace TreeBuilder

/-- `NewBuilder()`, 6879-6883, 7213-7217. -/
def fresh : TreeBuilder := ⟨false, .fresh⟩

/-- `Reset`, 6895-6899, 7229-7233. The nil table has no array; the one it has here is
empty and has no room. -/
def reset (b : TreeBuilder) : TreeBuilder where
  begun := b.begun || b.st.map.isSome
  st :=
    { mem := b.st.mem.alloc (.arr [])
      mark := .absent
      tab := ⟨b.st.mem.next, 0, 0⟩
      map := none
      state := .initial
      cm := .absent
      kw := none
      va := b.st.va.clear }

/-- A call on the tree assembler or its key assembler by a client that has them. -/
def kept (grow : Nat → Nat) (hint : Int) (s : TreeSt) (c : Call) : TreeRes :=
  match c with
  | .assembleEntry k => s.assembleEntry grow k
  | .assembleKey => s.assembleKey grow
  | .keyAssign k => s.keyAssign k
  | .keyAssignOther => .err .wrongKind s
  | .assembleValue => s.assembleValue
  | .finish => s.finish
  | c => s.call grow hint c

/-- Whether a handle is to an assembler without mark, as the entry assembler and its
parts are until they are handed out again. -/
def unmarked (h : List Nat) (o : Obj) : Bool :=
  match o.at' h with
  | some k => k.m.isNil
  | none => false

/-- A call on a handle of the entry assembler. -/
def deedEntry (repr : Bool) (grow : Nat → Nat) (h : List Nat) (d : Deed) (a : St) : Out :=
  if unmarked h a.obj then withoutMark d (Handles.deedAt repr grow h d a) else Handles.deedAt repr grow h d a

/-- A call on any handle, as in `TreeForeign`. -/
def deedAt (repr : Bool) (grow : Nat → Nat) (hint : Int) (h : List Nat) (d : TreeDeed) (b : TreeBuilder) : TreeRes :=
  match d, h with
  | .call c, [] => if b.begun then kept grow hint b.st c else b.st.call grow hint c
  | .call c, 0 :: h => b.st.withEntry (deedEntry repr grow h (.call c))
  | .node n, [] => b.st.assignNode repr grow n
  | .node n, 0 :: h => b.st.withEntry (deedEntry repr grow h (.node n))
  | .tree t room, [] => b.st.assignTree t room
  | _, _ => .noHandle

end TreeBuilder

end Verif.Handles
