import Verif.Model.Assemble

/-!
# Assemblers driven call by call (`/repo/ipldsch_satisfaction.go`)

`Verif.Model.Assemble` follows `AssignNode`. This file models the other way to use
a builder: a client that calls `BeginMap`, `AssembleEntry`, `AssembleKey`,
`AssembleValue`, `AssignString`, `Finish` and so on itself, on any of the handles
it holds, in any order, and that may go on after an error.

All scalar, list and struct types are covered, in both views, whose assemblers
differ only in what `valueFinishTidy` does to the child it leaves behind (see
`Frame.stale`). The map type `Tree` has its own model, `Verif.Model.TreeHeap`.

Simplified:
* A value being assembled lives in the assembler of that value and is written to
  its place in the surrounding value by `valueFinishTidy` of the parent. The code
  writes to the place directly (except for author and committer, 617, 627). The
  difference cannot be seen, because the surrounding value can only be read after
  its `Finish`, and `Finish` runs `valueFinishTidy`; `Props.current_handles` proves
  this of the assemblers in memory (`Verif.Model.Handles`).
* `AssignNode` appears only with a node of the assembler's own type
  (`assignSelf`). For scalars it otherwise calls `AsString` or `AsLink` and then
  `AssignString` or `AssignLink`; for the rest see `Verif.Model.Assemble`.
* `BeginList` with a size hint that cannot be allocated makes the Go runtime panic
  or run out of memory; here every hint can be allocated.
-/

namespace Verif.Calls

/-- The types of /repo/ipldsch_types.go that have such assemblers. Lines 53-145.
-/
inductive T where
  | string | gpgSig | link | treeLink | commitLink
  | linkList | stringList | tagList
  | person | treeEntry | tag | commit
  deriving DecidableEq, Repr

/-- A struct field: key, whether it is in the `sufficient` mask, type.
/repo/ipldsch_satisfaction.go:502-513. -/
structure FieldT where
  name : Bytes
  required : Bool
  ty : T

inductive Shape where
  | text
  | link
  | list (elem : T)
  | struct (fields : List FieldT)

/-- What kind of assembler a type has. The fields are those of
/repo/ipldsch_satisfaction.go:502-513 (commit), 3225-3231 (person), 5139-5146 (tag),
7642-7646 (tree entry). -/
def T.shape : T → Shape
  | .string | .gpgSig => .text
  | .link | .treeLink | .commitLink => .link
  | .linkList => .list .commitLink
  | .stringList => .list .string
  | .tagList => .list .tag
  | .person => .struct [⟨b!"date", true, .string⟩, ⟨b!"timezone", true, .string⟩,
      ⟨b!"email", true, .string⟩, ⟨b!"name", true, .string⟩]
  | .treeEntry => .struct [⟨b!"mode", true, .string⟩, ⟨b!"hash", true, .link⟩]
  | .tag => .struct [⟨b!"object", true, .link⟩, ⟨b!"type", true, .string⟩,
      ⟨b!"tag", true, .string⟩, ⟨b!"tagger", true, .person⟩, ⟨b!"message", true, .string⟩]
  | .commit => .struct [⟨b!"tree", true, .treeLink⟩, ⟨b!"parents", true, .linkList⟩,
      ⟨b!"message", true, .string⟩, ⟨b!"author", false, .person⟩,
      ⟨b!"committer", false, .person⟩, ⟨b!"encoding", false, .string⟩,
      ⟨b!"signature", false, .gpgSig⟩, ⟨b!"mergetag", true, .tagList⟩,
      ⟨b!"other", true, .stringList⟩]

/-- A value of one of the types. In a struct, `none` is a field that has not
been assigned. /repo/ipldsch_types.go:53-145. -/
inductive Val where
  | text (b : Bytes)
  | link (l : Link)
  | list (vs : List Val)
  | struct (fs : List (Option Val))

/-- The value behind a fresh assembler. /repo/ipldsch_satisfaction.go:449-467.
-/
def T.zero (t : T) : Val :=
  match t.shape with
  | .text => .text []
  | .link => .link .nil
  | .list _ => .list []
  | .struct fs => .struct (fs.map fun _ => none)

/-- State of an assembler, with the child that it has handed out. `ph` is the
`maState`, of which list assemblers use `initial`, `midValue` and `finished` (they
call it `laState`, /repo/ipldsch_minima.go:26-32). The child's mark `m` is where
the code has `ma.cm`, or the mark in the value for an optional field.
`begun` tells whether the client has got the map or list assembler that
`BeginMap` or `BeginList` returns. -/
inductive Frame where
  | mk (ty : T) (w : Val) (m : Maybe) (begun : Bool) (ph : MaState) (s f : Nat) (child : Option Frame)

namespace Frame

def ty : Frame → T | mk t _ _ _ _ _ _ _ => t
def w : Frame → Val | mk _ w _ _ _ _ _ _ => w
def m : Frame → Maybe | mk _ _ m _ _ _ _ _ => m
def begun : Frame → Bool | mk _ _ _ b _ _ _ _ => b
def ph : Frame → MaState | mk _ _ _ _ p _ _ _ => p
def s : Frame → Nat | mk _ _ _ _ _ s _ _ => s
def f : Frame → Nat | mk _ _ _ _ _ _ f _ => f
def child : Frame → Option Frame | mk _ _ _ _ _ _ _ c => c

end Frame

/-- `NewBuilder`, or a child assembler as handed out.
/repo/ipldsch_satisfaction.go:449-500, 2184-2216. -/
def fresh (t : T) : Frame := .mk t t.zero .absent false .initial 0 0 none

/-- The methods of the handles. `assignOther` stands for `AssignBool`,
`AssignInt`, `AssignFloat` and `AssignBytes`; the calls starting with `key` go
to the handle that `AssembleKey` returned. E.g.
/repo/ipldsch_satisfaction.go:515-919, 923-1034, 2217-2345, 4256-4316. -/
inductive Call where
  | beginMap
  | beginList (hint : Int)
  | assignNull
  | assignOther
  | assignString (b : Bytes)
  | assignLink (l : Link)
  | assignSelf (t : T) (v : Val)
  | assembleEntry (k : Bytes)
  | assembleKey
  | keyAssign (k : Bytes)
  | keyAssignOther
  | assembleValue
  | finish

/-- Outcome of a call: nil error, an error, or a panic. `noHandle`: the client has
no handle to call this on, or the call is not covered. -/
inductive Out where
  | ok (f : Frame)
  | err (e : Err) (f : Frame)
  | panic
  | noHandle

/-- Index of a key in the `switch` over field names.
/repo/ipldsch_satisfaction.go:714-801. -/
def find (fs : List FieldT) (k : Bytes) : Option Nat := fs.findIdx? fun f => f.name = k

/-- `fieldBits__T_sufficient`, e.g. 512. -/
def sufficientFrom : Nat → List FieldT → Nat
  | _, [] => 0
  | i, f :: r => (if f.required then 1 <<< i else 0) + sufficientFrom (i + 1) r

def sufficient (fs : List FieldT) : Nat := sufficientFrom 0 fs

/-- The value with the child's value at its place.
/repo/ipldsch_satisfaction.go:604-693, 2301-2312. -/
def put (w : Val) (f : Nat) (v : Val) : Val :=
  match w with
  | .struct l => .struct (l.set f (some v))
  | .list l => .list (l ++ [v])
  | w => w

/-- The state check at the start of `AssembleEntry`, `AssembleKey`, `Finish` (and
`AssembleValue` of lists) with `valueFinishTidy`, e.g. 604-709 and 2299-2323.
`none` is a panic. -/
def ready : Frame → Option Frame
  | .mk t w m b .initial s f c => some (.mk t w m b .initial s f c)
  | .mk t w m b .midValue s f (some c) =>
    if c.m = .value then some (.mk t (put w f c.w) m b .initial s f none) else none
  | _ => none

/-- `BeginMap`, e.g. 515-527, and of other types e.g. 4256. -/
def beginMap : Frame → Out
  | .mk t w m b ph s f c =>
    match t.shape with
    | .struct _ => if m = .absent then .ok (.mk t w .midvalue true ph s f c) else .panic
    | _ => .err .wrongKind (.mk t w m b ph s f c)

/-- `BeginList`, e.g. 2220-2235, and of other types e.g. 528. -/
def beginList (hint : Int) : Frame → Out
  | .mk t w m b ph s f c =>
    match t.shape with
    | .list _ =>
      if m = .absent then .ok (.mk t (if 0 < hint then .list [] else w) .midvalue true ph s f c)
      else .panic
    | _ => .err .wrongKind (.mk t w m b ph s f c)

/-- `AssignNull`, e.g. 531-544, 4259-4270. -/
def assignNull (a : Frame) : Out :=
  if a.m = .absent then .err .wrongKind a else .panic

/-- `AssignString`, e.g. 4280-4288, and of other types e.g. 554. -/
def assignString (x : Bytes) : Frame → Out
  | .mk t w m b ph s f c =>
    match t.shape with
    | .text => if m = .value then .panic else .ok (.mk t (.text x) .value b ph s f c)
    | _ => .err .wrongKind (.mk t w m b ph s f c)

/-- `AssignLink`, e.g. 2977-2985, and of other types e.g. 560. -/
def assignLink (x : Link) : Frame → Out
  | .mk t w m b ph s f c =>
    match t.shape with
    | .link => if m = .value then .panic else .ok (.mk t (.link x) .value b ph s f c)
    | _ => .err .wrongKind (.mk t w m b ph s f c)

/-- `AssignNode` with a node of the assembler's own type, e.g. 567-584, 2272-2283,
4302-4310. A node of another type is not covered here. -/
def assignSelf (u : T) (v : Val) : Frame → Out
  | .mk t _ m b ph s f c =>
    if u ≠ t then .noHandle
    else if m = .absent then .ok (.mk t v .value b ph s f c) else .panic

/-- The `switch` over the key that `AssembleEntry` and the key assembler share.
/repo/ipldsch_satisfaction.go:714-801, 952-1020. -/
def takeKey (fs : List FieldT) (k : Bytes) (s : Nat) : Res (Nat × FieldT) :=
  match find fs k with
  | none => .err .invalidKey
  | some i =>
    if s &&& (1 <<< i) ≠ 0 then .err .repeatedKey
    else match fs[i]? with
      | some fd => .ok (i, fd)
      | none => .panic

/-- `AssembleEntry`, e.g. 694-802. -/
def assembleEntry (k : Bytes) (a : Frame) : Out :=
  match a.ty.shape with
  | .struct fs =>
    match ready a with
    | none => .panic
    | some (.mk t w m b ph s f c) =>
      match takeKey fs k s with
      | .ok (i, fd) => .ok (.mk t w m b .midValue (s + (1 <<< i)) i (some (fresh fd.ty)))
      | .err e => .err e (.mk t w m b ph s f c)
      | .panic => .panic
  | _ => .noHandle

/-- `AssembleKey`, e.g. 803-820. -/
def assembleKey (a : Frame) : Out :=
  match a.ty.shape with
  | .struct _ =>
    match ready a with
    | none => .panic
    | some (.mk t w m b _ s f c) => .ok (.mk t w m b .midKey s f c)
  | _ => .noHandle

/-- `AssignString` of the key assembler, e.g. 941-1021. -/
def keyAssign (k : Bytes) : Frame → Out
  | .mk t w m b ph s f c =>
    match t.shape with
    | .struct fs =>
      if ph ≠ .midKey then .panic
      else match takeKey fs k s with
        | .ok (i, _) => .ok (.mk t w m b .expectValue (s + (1 <<< i)) i c)
        | .err e => .err e (.mk t w m b ph s f c)
        | .panic => .panic
    | _ => .noHandle

/-- The other methods of the key assembler, e.g. 923-938, 1022-1027. -/
def keyAssignOther (a : Frame) : Out :=
  match a.ty.shape with
  | .struct _ => .err .wrongKind a
  | _ => .noHandle

/-- `AssembleValue` of structs, e.g. 821-875, and of lists, e.g. 2308-2325. -/
def assembleValue (a : Frame) : Out :=
  match a.ty.shape with
  | .struct fs =>
    match a with
    | .mk t w m b .expectValue s f _ =>
      match fs[f]? with
      | some fd => .ok (.mk t w m b .midValue s f (some (fresh fd.ty)))
      | none => .panic
    | _ => .panic
  | .list e =>
    match ready a with
    | none => .panic
    | some (.mk t w m b _ s f _) => .ok (.mk t w m b .midValue s f (some (fresh e)))
  | _ => .noHandle

/-- `Finish` of structs, e.g. 876-913, and of lists, e.g. 2326-2340. -/
def finish (a : Frame) : Out :=
  match a.ty.shape with
  | .struct fs =>
    match ready a with
    | none => .panic
    | some (.mk t w m b ph s f c) =>
      if s &&& sufficient fs ≠ sufficient fs then .err .missingField (.mk t w m b ph s f c)
      else .ok (.mk t w .value b .finished s f c)
  | .list _ =>
    match ready a with
    | none => .panic
    | some (.mk t w _ b _ s f c) => .ok (.mk t w .value b .finished s f c)
  | _ => .noHandle

/-- A call on the handle of the assembler itself. The map and list methods need
the handle that `BeginMap` or `BeginList` returned.
/repo/ipldsch_satisfaction.go:515-562, 694-913, 941-1034, 2217-2345, 4256-4316.
-/
def Frame.call (a : Frame) : Call → Out
  | .beginMap => Calls.beginMap a
  | .beginList h => Calls.beginList h a
  | .assignNull => Calls.assignNull a
  | .assignOther => .err .wrongKind a
  | .assignString b => Calls.assignString b a
  | .assignLink l => Calls.assignLink l a
  | .assignSelf t v => Calls.assignSelf t v a
  | .assembleEntry k => if a.begun then Calls.assembleEntry k a else .noHandle
  | .assembleKey => if a.begun then Calls.assembleKey a else .noHandle
  | .keyAssign k => if a.begun then Calls.keyAssign k a else .noHandle
  | .keyAssignOther => if a.begun then Calls.keyAssignOther a else .noHandle
  | .assembleValue => if a.begun then Calls.assembleValue a else .noHandle
  | .finish => if a.begun then Calls.finish a else .noHandle

/-- The assembler with its child replaced. -/
def Frame.setChild : Frame → Frame → Frame
  | .mk t w m b ph s f _, c => .mk t w m b ph s f (some c)

/-- A call on the handle `d` levels down: 0 is the builder, 1 the child that it
last handed out, and so on. -/
def Frame.callAt (a : Frame) : Nat → Call → Out
  | 0, c => a.call c
  | d + 1, c =>
    match a.child with
    | none => .noHandle
    | some ch =>
      match ch.callAt d c with
      | .ok ch => .ok (a.setChild ch)
      | .err e ch => .err e (a.setChild ch)
      | .panic => .panic
      | .noHandle => .noHandle

/-- `Build`, e.g. 457-462. -/
def Frame.build (a : Frame) : Res Val := if a.m = .value then .ok a.w else .panic

/-- The value of a field as its child assembler sees it.
/repo/ipldsch_satisfaction.go:821-875. -/
def fieldVal (w : Val) (i : Nat) (t : T) : Val :=
  match w with
  | .struct l => ((l[i]?).getD none).getD t.zero
  | _ => t.zero

/-- A call on the handle of field `i` that the client kept after the struct was
finished; `ph` is the state that the child was left in. The child's mark: for a
required field it is `ma.cm`, which `valueFinishTidy` has set back to `Absent`; an
optional field has its mark in the value. The child's pointer: the assemblers of
the typed view have cleared it for required fields (`ma.ca_tree.w = nil`, 609),
those of the representation have not (1374-1377). With a cleared pointer, a scalar
or list child fails to store anything (`BeginList` stores only if the hint is
positive), and a struct child makes or adopts a value of its own (523-525,
574-578), so nothing reaches the finished value. The map and list methods are not
covered, since their handles need `BeginMap` or `BeginList` first. -/
def Frame.stale (repr : Bool) (i : Nat) (ph : MaState) (call : Call) : Frame → Out
  | .mk t w m b ph' s f c =>
    match t.shape with
    | .struct fs =>
      match fs[i]? with
      | none => .noHandle
      | some fd =>
        let child : Frame := .mk fd.ty (fieldVal w i fd.ty) (if fd.required then .absent else .value)
          false ph 0 0 none
        match child.call call with
        | .ok ch =>
          if repr then .ok (.mk t (put w i ch.w) m b ph' s f c)
          else match fd.ty.shape, call with
            | .struct _, _ => .ok (.mk t w m b ph' s f c)
            | .list _, .beginList h => if 0 < h then .panic else .ok (.mk t w m b ph' s f c)
            | _, _ => .panic
        | .err e _ => .err e (.mk t w m b ph' s f c)
        | .panic => .panic
        | .noHandle => .noHandle
    | _ => .noHandle

end Verif.Calls
