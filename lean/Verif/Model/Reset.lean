import Verif.Model.Foreign

/-!
# `Reset` (`/repo/ipldsch_satisfaction.go`)

`Reset` makes a new value and a new mark and sets the builder to a new assembler with
pointers to these (e.g. 463-467, 1244-1248). The assemblers of the fields and
elements are parts of it, so they are new as well; but they are still where they
were, and a client that was given handles to them still has these. What such an
assembler lacks until it is handed out again is the pointer `m` to its mark: it is
nil, and looking at the mark panics. Only the builder's own assembler has its mark in
the builder, so `MarkAt.builder` elsewhere is used for nil.
-/

namespace Verif.Handles

open Verif.Calls

mutual

/-- A new assembler, to which the client has the handles it had. -/
def Obj.clear : Obj → Obj
  | .mk t _ _ g b _ _ _ _ kids => .mk t none .builder g b .initial 0 0 .absent (Obj.clearAll kids)

def Obj.clearAll : List Obj → List Obj
  | [] => []
  | o :: r => o.clear :: Obj.clearAll r

end

/-- `Reset`, e.g. 463-467. -/
def reset (a : St) : St :=
  ⟨a.mem.alloc (T.zeroM a.obj.ty), .absent, a.obj.clear.lend (some (a.mem.next, [])) .builder⟩

/-- The assembler that a handle is to. -/
def Obj.at' : List Nat → Obj → Option Obj
  | [], o => some o
  | i :: h, .mk _ _ _ _ _ _ _ _ _ kids =>
    match kids[i]? with
    | some k => k.at' h
    | none => none

/-- Whether the pointer to the mark is nil. -/
def MarkAt.isNil : MarkAt → Bool
  | .builder => true
  | _ => false

/-- Whether a handle is to an assembler without mark. -/
def unmarked (h : List Nat) (o : Obj) : Bool :=
  match h with
  | [] => false
  | i :: h =>
    match o.at' (i :: h) with
    | some k => k.m.isNil
    | none => false

/-- What is left of a call on an assembler without mark: `AssignNull` looks at the
mark first (e.g. 531-533, 4262-4264), and the calls that look at it or set it when
they succeed panic instead (e.g. 516, 568, 911, 2221, 2273, 2343, 4284, 2978).
`AssignNode` is `AssignNull`, or looks at the mark, or sets it when it succeeds (563-600,
2264-2296, 4298-4317). -/
def withoutMark (d : Deed) (o : Out) : Out :=
  match d, o with
  | _, .noHandle => .noHandle
  | .node .null, _ => .panic
  | .call .assignNull, _ => .panic
  | .call (.assembleEntry _), o => o
  | .call .assembleKey, o => o
  | .call (.keyAssign _), o => o
  | .call .keyAssignOther, o => o
  | .call .assembleValue, o => o
  | _, .ok _ => .panic
  | _, o => o

/-- A call on any handle of a builder that may have been reset. -/
def deedAfter (repr : Bool) (grow : Nat → Nat) (h : List Nat) (d : Deed) (a : St) : Out :=
  if unmarked h a.obj then withoutMark d (deedAt repr grow h d a) else deedAt repr grow h d a

end Verif.Handles
