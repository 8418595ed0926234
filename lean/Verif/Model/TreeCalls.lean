import Verif.Model.TreeHeap
import Verif.Model.Builders
import Verif.Model.Calls

/-!
# The tree assembler driven call by call

`Verif.Model.TreeHeap` has the tree assembler (/repo/ipldsch_satisfaction.go:
6901-7119, 7236-7453) with its memory but leaves out what goes on inside the value
assembler. Here the value assembler is the tree entry assembler of
`Verif.Model.Calls`. It shares its mark with the tree assembler (`ma.va.m = &ma.cm`,
7012, 7059) and writes to the row's value (`ma.va.w = &tz.v`, 7011, 7058).

As in `Verif.Model.Calls`, a value in progress is written to its place when it is
complete. Handles kept after the value they are for are not covered.
-/

namespace Verif.Calls

open Verif

/-- A tree assembler with the value assembler it has handed out. -/
structure TreeFrame where
  s : TreeAsm
  child : Option Frame

/-- `NewBuilder()`. /repo/ipldsch_satisfaction.go:6878-6893, 7213-7228. -/
def TreeFrame.fresh : TreeFrame := ⟨.fresh, none⟩

/-- Outcome of a call, as `Out`. -/
inductive TreeOut where
  | ok (a : TreeFrame)
  | err (e : Err) (a : TreeFrame)
  | panic
  | noHandle

/-- The `_TreeEntry` in memory for a value of the call model.
/repo/ipldsch_types.go:140-143. -/
def entryOf : Val → TreeEntry
  | .struct [some (.text m), some (.link h)] => ⟨m, h⟩
  | .struct [some (.text m), none] => ⟨m, .nil⟩
  | .struct [none, some (.link h)] => ⟨[], h⟩
  | _ => ⟨[], .nil⟩

/-- A call of the tree assembler itself; `c` is the value assembler from then on. -/
def TreeFrame.ret (c : Option Frame) : Ret TreeAsm → TreeOut
  | .ok s => .ok ⟨s, c⟩
  | .err e s => .err e ⟨s, none⟩
  | .panic => .panic

/-- What a call through the value assembler leaves behind: its mark is the tree's
`cm`, and a complete value is in the row. -/
def TreeFrame.sync (a : TreeFrame) (ch : Frame) : TreeFrame :=
  match a.s.va with
  | some p =>
    if ch.m = .value then
      ⟨{ a.s.store p (fun r => (r.1, entryOf ch.w)) with cm := ch.m }, some ch⟩
    else ⟨{ a.s with cm := ch.m }, some ch⟩
  | none => ⟨{ a.s with cm := ch.m }, some ch⟩

/-- A call on the handle of the tree assembler, or of its key assembler. Map methods
need the handle that `BeginMap` returned. The size hint is `hint`.
/repo/ipldsch_satisfaction.go:6916-6963, 7030-7126, 4256-4310. -/
def TreeFrame.call (pol : TreeAsm → Nat) (hint : Int) (a : TreeFrame) : Call → TreeOut
  | .beginMap => ret none (a.s.beginMap hint)
  | .beginList _ => .err .wrongKind a
  | .assignNull => if a.s.m = .absent then .err .wrongKind a else .panic
  | .assignOther => .err .wrongKind a
  | .assignString _ => .err .wrongKind a
  | .assignLink _ => .err .wrongKind a
  | .assignSelf _ _ => .noHandle
  | .assembleEntry k =>
    if a.s.map.isSome then ret (some (Calls.fresh .treeEntry)) (a.s.assembleEntry pol k) else .noHandle
  | .assembleKey => if a.s.map.isSome then ret none (a.s.assembleKey pol) else .noHandle
  | .keyAssign k => if a.s.map.isSome then ret none (a.s.keyAssign k) else .noHandle
  | .keyAssignOther => if a.s.map.isSome then .err .wrongKind a else .noHandle
  | .assembleValue =>
    if a.s.map.isSome then ret (some (Calls.fresh .treeEntry)) a.s.assembleValue else .noHandle
  | .finish => if a.s.map.isSome then ret none a.s.finish else .noHandle

/-- A call on the handle `d` levels down. -/
def TreeFrame.callAt (pol : TreeAsm → Nat) (hint : Int) (a : TreeFrame) : Nat → Call → TreeOut
  | 0, c => a.call pol hint c
  | d + 1, c =>
    match a.child with
    | none => .noHandle
    | some ch =>
      match ch.callAt d c with
      | .ok ch => .ok (a.sync ch)
      | .err e ch => .err e (a.sync ch)
      | .panic => .panic
      | .noHandle => .noHandle

/-- `Build`. /repo/ipldsch_satisfaction.go:6889-6894. -/
def TreeFrame.build (a : TreeFrame) : Res Tree :=
  if a.s.m = .value then .ok a.s.built else .panic

end Verif.Calls
