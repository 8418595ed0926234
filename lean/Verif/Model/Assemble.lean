import Verif.Model.Node

/-!
# Node assemblers (`/repo/ipldsch_satisfaction.go`)

The generated code repeats one template per struct type and view and one per
list type and view. The template is modelled once, over a description of the
fields, and instantiated per type.

An assembler of a type `W` has a pointer `w` to the value being filled (possibly
nil), a completion mark `m`, and for recursive types a state. `allowNull` is
never stored anywhere in this package, so `AssignNull` always fails.

Child assemblers are reused but are always in their initial state when handed
out: `reset` is called by the list and tree assemblers after every element, and
a struct hands out each child at most once per value because of the field bits.
So a child's `AssignNode` is modelled as a function of the node and of the value
behind `w`.
-/

namespace Verif

/-! ## Scalars -/

/-- `_String__Assembler.AssignNode` on an unassigned value,
/repo/ipldsch_satisfaction.go:4298-4317. -/
def assignString (n : Node) : Res Bytes :=
  if n.isNull then .err .wrongKind
  else match n with
    | .own (.string b) => .ok b
    | n => n.asString

/-- `_GpgSig__Assembler.AssignNode`, 2781-2800. -/
def assignGpgSig (n : Node) : Res Bytes :=
  if n.isNull then .err .wrongKind
  else match n with
    | .own (.gpgSig b) => .ok b
    | n => n.asString

/-- `_Link__Assembler.AssignNode`, 2986-3005. -/
def assignLink (n : Node) : Res Link :=
  if n.isNull then .err .wrongKind
  else match n with
    | .own (.link l) => .ok l
    | n => n.asLink

/-- `_Tree_Link__Assembler.AssignNode`, 8555-8574. -/
def assignTreeLink (n : Node) : Res Link :=
  if n.isNull then .err .wrongKind
  else match n with
    | .own (.treeLink l) => .ok l
    | n => n.asLink

/-- `_Commit_Link__Assembler.AssignNode`, 1978-1997. -/
def assignCommitLink (n : Node) : Res Link :=
  if n.isNull then .err .wrongKind
  else match n with
    | .own (.commitLink l) => .ok l
    | n => n.asLink

/-! ## Struct assemblers -/

/-- `schema.Maybe`, with the extra value of /repo/ipldsch_minima.go:12. -/
inductive Maybe where
  | absent | null | value | midvalue
  deriving DecidableEq, Repr

/-- `maState`, /repo/ipldsch_minima.go:17-24. -/
inductive MaState where
  | initial | midKey | expectValue | midValue | finished
  deriving DecidableEq, Repr

/-- A field of a struct type: its key, whether it is in the `sufficient` mask,
and what assigning a node through the child assembler does to the value. One
case of the switches in /repo/ipldsch_satisfaction.go:694-802. -/
structure Field (W : Type) where
  name : Bytes
  required : Bool
  assign : W → Node → Res W

/-- A struct type in one view. `self` recognises the nodes that `AssignNode`
copies without looking at entries (`v.(*_T)`).
/repo/ipldsch_satisfaction.go:563-600. -/
structure Struct (W : Type) where
  fields : List (Field W)
  self : Node → Option W

/-- The state of a struct assembler: e.g. `_Commit__ReprAssembler`, 1250-1267.
`cm` is the completion mark of the child being assembled (`ma.cm`; for the
optional fields of a commit the code keeps it in the value, `ma.w.author.m`). -/
structure Asm (W : Type) where
  w : Option W
  m : Maybe
  state : MaState
  s : Nat
  f : Nat
  cm : Maybe

/-- A fresh assembler: `Reset` of a builder (w points to a zero value), or a
child assembler as handed out. /repo/ipldsch_satisfaction.go:445-500. -/
def Asm.fresh {W : Type} (w : Option W) : Asm W :=
  { w, m := .absent, state := .initial, s := 0, f := 0, cm := .absent }

variable {W : Type}

/-- Index of a key in the `switch` over field names.
/repo/ipldsch_satisfaction.go:714-801. -/
def Struct.find (S : Struct W) (k : Bytes) : Option Nat :=
  S.fields.findIdx? fun f => f.name = k

/-- `fieldBits__T_sufficient`, e.g. 512. -/
def sufficientFrom : Nat → List (Field W) → Nat
  | _, [] => 0
  | i, f :: r => (if f.required then 1 <<< i else 0) + sufficientFrom (i + 1) r

/-- `fieldBits__T_sufficient`. /repo/ipldsch_satisfaction.go:502-513, 3225-3231,
5139-5146, 7642-7646. -/
def Struct.sufficient (S : Struct W) : Nat := sufficientFrom 0 S.fields

/-- `valueFinishTidy`, e.g. 1371-1455. `none` is `false`. -/
def Struct.tidy (S : Struct W) (a : Asm W) : Res (Option (Asm W)) :=
  if a.f < S.fields.length then
    if a.cm = .value then .ok (some { a with cm := .absent, state := .initial })
    else .ok none
  else .panic

/-- The state check at the start of `AssembleEntry`, `AssembleKey` and `Finish`,
e.g. 1457-1471: everything but `initial` and a tidied `midValue` panics. -/
def Struct.ready (S : Struct W) (a : Asm W) : Res (Asm W) :=
  match a.state with
  | .initial => .ok a
  | .midValue => do
    match ← S.tidy a with
    | some a => .ok a
    | none => .panic
  | _ => .panic

/-- `AssembleKey`, e.g. 1570-1587. -/
def Struct.assembleKey (S : Struct W) (a : Asm W) : Res (Asm W) := do
  let a ← S.ready a
  .ok { a with state := .midKey }

/-- `KeyAssembler.AssignString`, e.g. 1712-1791. -/
def Struct.keyAssignString (S : Struct W) (a : Asm W) (k : Bytes) : Res (Asm W) :=
  if a.state ≠ .midKey then .panic
  else match S.find k with
    | none => .err .invalidKey
    | some i =>
      if a.s &&& (1 <<< i) ≠ 0 then .err .repeatedKey
      else .ok { a with s := a.s + (1 <<< i), state := .expectValue, f := i }

/-- `KeyAssembler.AssignNode`, e.g. 1798-1804. -/
def Struct.keyAssignNode (S : Struct W) (a : Asm W) (n : Node) : Res (Asm W) := do
  let k ← n.asString
  S.keyAssignString a k

/-- `AssembleValue`, e.g. 1588-1646: hands out the child assembler of field `f`.
Every case takes the address of a field of `*ma.w`, which panics when `ma.w` is
nil. -/
def Struct.assembleValue (S : Struct W) (a : Asm W) : Res (Asm W) :=
  if a.state ≠ .expectValue then .panic
  else match a.w with
    | none => .panic
    | some _ => if a.f < S.fields.length then .ok { a with state := .midValue } else .panic

/-- `AssignNode` on the child assembler that `AssembleValue` or `AssembleEntry`
returned. /repo/ipldsch_satisfaction.go:821-875. -/
def Struct.childAssign (S : Struct W) (a : Asm W) (n : Node) : Res (Asm W) :=
  if a.cm ≠ .absent then .panic
  else match a.w, S.fields[a.f]? with
    | some w, some f => do
      let w ← f.assign w n
      .ok { a with w := some w, cm := .value }
    | _, _ => .panic

/-- `AssembleEntry`, e.g. 1456-1569. -/
def Struct.assembleEntry (S : Struct W) (a : Asm W) (k : Bytes) : Res (Asm W) := do
  let a ← S.ready a
  match S.find k with
  | none => .err .invalidKey
  | some i =>
    if a.s &&& (1 <<< i) ≠ 0 then .err .repeatedKey
    else match a.w with
      | none => .panic
      | some _ => .ok { a with s := a.s + (1 <<< i), state := .midValue, f := i }

/-- `Finish`, e.g. 1647-1683. -/
def Struct.finish (S : Struct W) (a : Asm W) : Res (Asm W) := do
  let a ← S.ready a
  if a.s &&& S.sufficient ≠ S.sufficient then .err .missingField
  else .ok { a with state := .finished, m := .value }

/-- The loop of `AssignNode` over the entries of a map, e.g. 1352-1369. -/
def Struct.assignEntries (S : Struct W) : List (Bytes × Node) → Asm W → Res (Asm W)
  | [], a => S.finish a
  | (k, v) :: r, a => do
    let a ← S.assembleKey a
    let a ← S.keyAssignNode a (.str k)
    let a ← S.assembleValue a
    let a ← S.childAssign a v
    S.assignEntries r a

/-- `AssignNode`, e.g. 1330-1369, on an assembler whose pointer is `w`. -/
def Struct.assignNode (S : Struct W) (a : Asm W) (n : Node) : Res (Asm W) :=
  if n.isNull then
    match a.m with
    | .absent => .err .wrongKind
    | _ => .panic
  else match S.self n with
    | some v =>
      match a.m with
      | .absent => .ok { a with w := some v, m := .value }
      | _ => .panic
    | none =>
      if n.kind ≠ .map then .err .wrongKind
      else match n.mapIterator with
        | none => .panic
        | some es => S.assignEntries es a

/-- `BeginMap`, e.g. 1282-1294. -/
def Struct.beginMap (zero : W) (a : Asm W) : Res (Asm W) :=
  match a.m with
  | .absent => .ok { a with m := .midvalue, w := some (a.w.getD zero) }
  | _ => .panic

/-- `Build`, e.g. 1239-1244. -/
def Asm.build (a : Asm W) : Res W :=
  match a.m, a.w with
  | .value, some w => .ok w
  | _, _ => .panic

/-- `AssignNode` of a child assembler with pointer `w` (nil or to a zero or
earlier value), followed by the parent's reading of the value.
/repo/ipldsch_satisfaction.go:604-693. -/
def Struct.child (S : Struct W) (w : Option W) (n : Node) : Res W := do
  let a ← S.assignNode (Asm.fresh w) n
  a.build

/-- `NewBuilder()`, `AssignNode(n)`, `Build()`.
/repo/ipldsch_satisfaction.go:449-467. -/
def Struct.buildFrom (S : Struct W) (zero : W) (n : Node) : Res W := S.child (some zero) n

/-! ## Lists -/

/-- The loop of a list assembler's `AssignNode`, e.g.
/repo/ipldsch_satisfaction.go:2540-2553 with `AssembleValue` 2571-2588: append a
zero element and assign it through the child assembler. -/
def assignElems {α : Type} (f : Node → Res α) : List Node → List α → Res (List α)
  | [], acc => .ok acc
  | n :: r, acc => do
    let a ← f n
    assignElems f r (acc ++ [a])

/-- `AssignNode` of a list assembler on an unassigned list holding `acc`, e.g.
2526-2553; `self` recognises the nodes that are copied. -/
def assignList {α : Type} (self : Node → Option (List α)) (f : Node → Res α) (acc : List α)
    (n : Node) : Res (List α) :=
  if n.isNull then .err .wrongKind
  else match self n with
    | some l => .ok l
    | none =>
      if n.kind ≠ .list then .err .wrongKind
      else match n.listIterator with
        | none => .panic
        | some ns => assignElems f ns acc

/-- `_Commit_Link_List__Assembler` 2268-2295 and its representation twin
2526-2553 (the element assembler is the same type). -/
def assignLinkList (acc : List Link) (n : Node) : Res (List Link) :=
  assignList (fun | .own (.linkList l) => some l | _ => none) assignCommitLink acc n

/-- `_String_List__Assembler` 4585-4612 and its representation twin 4843-4870. -/
def assignStringList (acc : List Bytes) (n : Node) : Res (List Bytes) :=
  assignList (fun | .own (.stringList l) => some l | _ => none) assignString acc n

/-! ## The struct types

The typed view and the representation view of each type use the same keys and
the same masks; they differ only in the child assemblers they hold, and those
accept the same nodes. So one description serves both views. -/

/-- `_PersonInfo__Assembler` 3200-3520 and `_PersonInfo__ReprAssembler`
3740-4046. -/
def personStruct : Struct PersonInfo where
  fields := [
    ⟨b!"date", true, fun p n => do .ok { p with date := ← assignString n }⟩,
    ⟨b!"timezone", true, fun p n => do .ok { p with timezone := ← assignString n }⟩,
    ⟨b!"email", true, fun p n => do .ok { p with email := ← assignString n }⟩,
    ⟨b!"name", true, fun p n => do .ok { p with name := ← assignString n }⟩]
  self := fun | .own (.person p) => some p | _ => none

/-- `_TreeEntry__Assembler` 7620-7883 and `_TreeEntry__ReprAssembler`
8066-8325. -/
def treeEntryStruct : Struct TreeEntry where
  fields := [
    ⟨b!"mode", true, fun e n => do .ok { e with mode := ← assignString n }⟩,
    ⟨b!"hash", true, fun e n => do .ok { e with hash := ← assignLink n }⟩]
  self := fun | .own (.treeEntry e) => some e | _ => none

/-- `_Tag__Assembler` 5112-5462 and `_Tag__ReprAssembler` 5696-6030. The tagger
is stored in place, so its child assembler has a pointer (5396, 5964). -/
def tagStruct : Struct Tag where
  fields := [
    ⟨b!"object", true, fun t n => do .ok { t with object := ← assignLink n }⟩,
    ⟨b!"type", true, fun t n => do .ok { t with typ := ← assignString n }⟩,
    ⟨b!"tag", true, fun t n => do .ok { t with tag := ← assignString n }⟩,
    ⟨b!"tagger", true, fun t n => do .ok { t with tagger := ← personStruct.child (some t.tagger) n }⟩,
    ⟨b!"message", true, fun t n => do .ok { t with message := ← assignString n }⟩]
  self := fun | .own (.tag t) => some t | _ => none

/-- `_Tag_List__Assembler` 6368-6395 and its representation twin 6626-6653. -/
def assignTagList (acc : List Tag) (n : Node) : Res (List Tag) :=
  assignList (fun | .own (.tagList l) => some l | _ => none)
    (fun n => tagStruct.child (some Tag.zero) n) acc n

/-- Assignment to an optional field whose mark lives in the value: a second
assignment finds the mark set. /repo/ipldsch_satisfaction.go:640-679. -/
def assignOnce {α : Type} (old : Option α) (r : Res α) : Res (Option α) :=
  match old with
  | some _ => .panic
  | none => do .ok (some (← r))

/-- `_Commit__Assembler` 470-919 and `_Commit__ReprAssembler` 1250-1690. The
author and committer are pointers; their child assemblers start with
`ma.ca_author.w = ma.w.author.v`, which is nil (1604-1613). -/
def commitStruct : Struct Commit where
  fields := [
    ⟨b!"tree", true, fun c n => do .ok { c with tree := ← assignTreeLink n }⟩,
    ⟨b!"parents", true, fun c n => do .ok { c with parents := ← assignLinkList c.parents n }⟩,
    ⟨b!"message", true, fun c n => do .ok { c with message := ← assignString n }⟩,
    ⟨b!"author", false, fun c n => do
      .ok { c with author := ← assignOnce c.author (personStruct.child none n) }⟩,
    ⟨b!"committer", false, fun c n => do
      .ok { c with committer := ← assignOnce c.committer (personStruct.child none n) }⟩,
    ⟨b!"encoding", false, fun c n => do
      .ok { c with encoding := ← assignOnce c.encoding (assignString n) }⟩,
    ⟨b!"signature", false, fun c n => do
      .ok { c with signature := ← assignOnce c.signature (assignGpgSig n) }⟩,
    ⟨b!"mergetag", true, fun c n => do .ok { c with mergetag := ← assignTagList c.mergetag n }⟩,
    ⟨b!"other", true, fun c n => do .ok { c with other := ← assignStringList c.other n }⟩]
  self := fun | .own (.commit c) => some c | _ => none

/-- `Type.PersonInfo__Repr.NewBuilder()`, `AssignNode`, `Build`.
/repo/ipldsch_satisfaction.go:3716-4137. -/
def buildPerson (n : Node) : Res PersonInfo := personStruct.buildFrom .zero n

/-- `Type.TreeEntry__Repr.NewBuilder()`, `AssignNode`, `Build`.
/repo/ipldsch_satisfaction.go:8049-8390. -/
def buildTreeEntry (n : Node) : Res TreeEntry := treeEntryStruct.buildFrom ⟨[], .nil⟩ n

/-- `Type.Tag__Repr.NewBuilder()`, `AssignNode`, `Build`.
/repo/ipldsch_satisfaction.go:5672-6130. -/
def buildTag (n : Node) : Res Tag := tagStruct.buildFrom .zero n

/-- `Type.Commit__Repr.NewBuilder()`, `AssignNode`, `Build`.
/repo/ipldsch_satisfaction.go:1226-1810. -/
def buildCommit (n : Node) : Res Commit := commitStruct.buildFrom .zero n

end Verif
