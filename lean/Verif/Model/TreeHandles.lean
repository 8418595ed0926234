import Verif.Model.Handles
import Verif.Model.TreeCalls

/-!
# The tree assembler in memory (`/repo/ipldsch_satisfaction.go`)

`Verif.Model.Handles` has all assemblers but that of trees as objects in memory, with
calls on any handle that was ever given out. Here is the one for trees, typed
(6901-7119) and representation (7236-7453). It contains one assembler for keys
(`ka`) and one for entries (`va`), for good. The rows of the table are structs of a
key and an entry, in the array behind the slice `w.t`; the map `w.m` holds pointers
to the entries in the rows.

Simplified as there, and:
* `AssignNode` on the tree assembler itself is left out; `TreeForeign` has it.
* The handle of the key assembler is not kept account of: without a place to write
  to, it panics.
* All keys can be stored: `fromString` (7043) never fails.
-/

namespace Verif.Handles

open Verif.Calls

/-- A slice. -/
structure Slice where
  arr : Nat
  len : Nat
  cap : Nat

/-- A `_Tree__Entry` in memory. /repo/ipldsch_types.go:140-143. -/
def entryM (e : TreeEntry) : MVal := .struct [.text e.mode, .link e.hash]

/-- A row of the table in memory. /repo/ipldsch_types.go:131-134. -/
def rowM (r : Row) : MVal := .struct [.text r.1, entryM r.2]

/-- A tree assembler with the memory. `mark` is the builder's; the table `tab` and
the map `map` are the fields of `w`, and a nil map is `none`; `kw` is `ka.w`; the
marks of `ka` and `va` are `cm`. /repo/ipldsch_satisfaction.go:6901-6909. -/
structure TreeSt where
  mem : Mem
  mark : Maybe
  tab : Slice
  map : Option (List (Bytes × Ptr))
  state : MaState
  cm : Maybe
  kw : Option Ptr
  va : Obj

/-- Outcome of a call. -/
inductive TreeRes where
  | ok (s : TreeSt)
  | err (e : Err) (s : TreeSt)
  | panic
  | noHandle

namespace TreeSt

/-- `NewBuilder()` with `Reset`, 6879-6899, 7213-7233. -/
def fresh : TreeSt where
  mem := { at' := fun _ => .arr [], next := 1 }
  mark := .absent
  tab := ⟨0, 0, 0⟩
  map := none
  state := .initial
  cm := .absent
  kw := none
  va := newObj (rank .treeEntry) .treeEntry

/-- `BeginMap(sizeHint)`, 6916-6930. -/
def beginMap (hint : Int) (s : TreeSt) : TreeRes :=
  if s.mark = .absent then
    .ok { s with mark := .midvalue, map := some [], mem := s.mem.alloc (.arr []), tab := ⟨s.mem.next, 0, hint.toNat⟩ }
  else .panic

/-- The rows of an array, or none. -/
def items (μ : Mem) (r : Nat) : List MVal :=
  match μ.at' r with
  | .arr vs => vs
  | _ => []

/-- `append(ma.w.t, r)`, 7050, 7078. -/
def append (grow : Nat → Nat) (r : MVal) (s : TreeSt) : TreeSt :=
  let vs := items s.mem s.tab.arr
  if s.tab.len < s.tab.cap then
    { s with
      mem := s.mem.write (s.tab.arr, []) (.arr (vs.take s.tab.len ++ r :: vs.drop (s.tab.len + 1)))
      tab := ⟨s.tab.arr, s.tab.len + 1, s.tab.cap⟩ }
  else
    { s with
      mem := s.mem.alloc (.arr (vs.take s.tab.len ++ [r]))
      tab := ⟨s.mem.next, s.tab.len + 1, max (s.tab.len + 1) (grow s.tab.len)⟩ }

/-- `&tz.k` (0) and `&tz.v` (1) of the last row `tz`, 7051, 7055, 7081. -/
def last (s : TreeSt) (i : Nat) : Ptr := (s.tab.arr, [s.tab.len - 1, i])

/-- `valueFinishTidy`, 7018-7029. `none`: it returns false. -/
def tidyValue (s : TreeSt) : Option TreeSt :=
  if s.cm = .value then some { s with va := s.va.park.reset, cm := .absent, state := .initial } else none

/-- The `switch ma.state` that opens `AssembleEntry`, `AssembleKey` and `Finish`,
7031-7045, 7063-7077, 7102-7116. `none` is a panic. -/
def ready (s : TreeSt) : Option TreeSt :=
  match s.state with
  | .initial => some s
  | .midValue => s.tidyValue
  | _ => none

/-- Whether the map has the key, 7047. -/
def has (m : List (Bytes × Ptr)) (k : Bytes) : Bool := m.any fun x => decide (x.1 = k)

/-- `AssembleEntry(k)`, 7030-7059. -/
def assembleEntry (grow : Nat → Nat) (k : Bytes) (s : TreeSt) : TreeRes :=
  match s.ready with
  | none => .panic
  | some s =>
    if has (s.map.getD []) k then .err .repeatedKey s
    else
      let s := s.append grow (rowM (k, Row.zero.2))
      match s.map with
      | none => .panic
      | some m => .ok { s with
          state := .midValue, map := some ((k, s.last 1) :: m), va := s.va.lend (some (s.last 1)) .parent }

/-- `AssembleKey()`, 7060-7082. -/
def assembleKey (grow : Nat → Nat) (s : TreeSt) : TreeRes :=
  match s.ready with
  | none => .panic
  | some s =>
    let s := s.append grow (rowM Row.zero)
    .ok { s with state := .midKey, kw := some (s.last 0) }

/-- `AssignString(k)` on the key assembler, 4285-4293. -/
def keyAssign (k : Bytes) (s : TreeSt) : TreeRes :=
  if s.cm = .value then .panic
  else match s.kw with
    | none => .panic
    | some p => .ok { s with mem := s.mem.write p (.text k), cm := .value }

/-- `AssembleValue()`, 7083-7100, with `keyFinishTidy`, 7003-7017. -/
def assembleValue (s : TreeSt) : TreeRes :=
  match s.state with
  | .midKey =>
    if s.cm = .value then
      match s.mem.read (s.last 0), s.map with
      | .text k, some m => .ok { s with
          state := .midValue, kw := none, cm := .absent, map := some ((k, s.last 1) :: m)
          va := s.va.lend (some (s.last 1)) .parent }
      | _, _ => .panic
    else .panic
  | .expectValue => .ok { s with state := .midValue }
  | _ => .panic

/-- `Finish()`, 7101-7119. -/
def finish (s : TreeSt) : TreeRes :=
  match s.ready with
  | none => .panic
  | some s => .ok { s with state := .finished, mark := .value }

/-- A call on the tree assembler or its key assembler. Map methods need the handle
that `BeginMap` returned. /repo/ipldsch_satisfaction.go:6916-6963, 7030-7126,
4256-4310. -/
def call (grow : Nat → Nat) (hint : Int) (s : TreeSt) (c : Call) : TreeRes :=
  let inner (o : TreeRes) := if s.map.isSome then o else .noHandle
  match c with
  | .beginMap => s.beginMap hint
  | .beginList _ => .err .wrongKind s
  | .assignNull => if s.mark = .absent then .err .wrongKind s else .panic
  | .assignOther => .err .wrongKind s
  | .assignString _ => .err .wrongKind s
  | .assignLink _ => .err .wrongKind s
  | .assignSelf _ _ => .noHandle
  | .assembleEntry k => inner (s.assembleEntry grow k)
  | .assembleKey => inner (s.assembleKey grow)
  | .keyAssign k => inner (s.keyAssign k)
  | .keyAssignOther => inner (.err .wrongKind s)
  | .assembleValue => inner s.assembleValue
  | .finish => inner s.finish

/-- A call on any handle: `[]` is that of the builder, `0 :: h` the handle `h` of the
entry assembler. -/
def callAt (repr : Bool) (grow : Nat → Nat) (hint : Int) : List Nat → Call → TreeSt → TreeRes
  | [], c, s => s.call grow hint c
  | 0 :: h, c, s =>
    match Handles.callAt repr grow h c ⟨s.mem, s.cm, s.va⟩ with
    | .ok a => .ok { s with mem := a.mem, cm := a.mark, va := a.obj }
    | .err e a => .err e { s with mem := a.mem, cm := a.mark, va := a.obj }
    | .panic => .panic
    | .noHandle => .noHandle
  | _, _, _ => .noHandle

/-- A `_TreeEntry` as its methods show it, 7482-7530. -/
def loadEntry : MVal → TreeEntry
  | .struct [.text m, .link h] => ⟨m, h⟩
  | _ => ⟨[], .nil⟩

/-- A row as the iterator shows it, 6830-6840. -/
def loadRow : MVal → Row
  | .struct [.text k, e] => (k, loadEntry e)
  | _ => Row.zero

/-- `Build`, 6889-6894, 7224-7229: the rows as iterating shows them (6824-6842), and
what looking up shows (6791-6801). -/
def build (s : TreeSt) : Res Tree :=
  if s.mark = .value then
    .ok ⟨(s.map.getD []).map fun x => (x.1, loadEntry (s.mem.read x.2)),
      ((items s.mem s.tab.arr).take s.tab.len).map loadRow⟩
  else .panic

end TreeSt

end Verif.Handles
