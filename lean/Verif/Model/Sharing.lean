import Verif.Model.TreeHeap

/-!
# Builders that share memory (`/repo/ipldsch_satisfaction.go`)

`AssignNode` of a node of the assembler's own type copies one Go struct
(`*na.w = *v2`). What the struct points to is then shared with the node that was
given: the array of a list, the array and the map of a tree, the author and the
committer of a commit. Here any number of builders live in one memory, and the
node a builder has built is what its `w` shows at the moment (`Build` returns
`nb.w` itself, e.g. 2192-2197).

`Reset` (e.g. 2198-2202) makes a new value and mark, so it is the same as a new
builder.
-/

namespace Verif

/-- A kind of builder: `M` is the memory, `L` the fields of one builder, `C` its
calls, `V` what a caller can read from a node. -/
structure BuilderKind (M L C V : Type) where
  /-- The memory before any builder is made. -/
  init : M
  /-- `NewBuilder()`; there may be two types of builder. -/
  fresh : Bool → M → M × L
  /-- A call, with the fields of the builder whose node is given as argument.
  `none` if it panics. -/
  step : M → L → Option L → C → Option (M × L)
  /-- `Build()` does not panic. -/
  done : L → Bool
  /-- What can be read from the node. -/
  view : M → L → V
  /-- The assembler that gets this call does not hold a value yet. -/
  free : L → C → Bool

/-- Memory and the builders in it. -/
structure World (M L : Type) where
  mem : M
  asms : List L

/-- What a caller does: make a builder, or make a call on builder `i`, perhaps
with the node built by builder `arg`. -/
inductive Act (C : Type) where
  | new (t : Bool)
  | call (i : Nat) (arg : Option Nat) (c : C)

namespace BuilderKind

variable {M L C V : Type} (K : BuilderKind M L C V)

/-- No builder yet. -/
def start : World M L := ⟨K.init, []⟩

/-- The node built by builder `i`; `none` if there is none. -/
def node (w : World M L) (i : Nat) : Option V :=
  w.asms[i]?.bind fun a => if K.done a then some (K.view w.mem a) else none

/-- The argument of a call: the fields of a builder that has built its node. -/
def argument (w : World M L) : Option Nat → Option (Option L)
  | none => some none
  | some j => w.asms[j]?.bind fun b => if K.done b then some (some b) else none

/-- One action. `none` if it panics or names no builder. -/
def act (w : World M L) : Act C → Option (World M L)
  | .new t => some ⟨(K.fresh t w.mem).1, w.asms ++ [(K.fresh t w.mem).2]⟩
  | .call i arg c =>
    w.asms[i]?.bind fun a =>
      (K.argument w arg).bind fun b =>
        (K.step w.mem a b c).map fun r => ⟨r.1, w.asms.set i r.2⟩

/-- Actions in a row. -/
def run : List (Act C) → World M L → Option (World M L)
  | [], w => some w
  | x :: r, w => (K.act w x).bind (run r)

/-- The action makes no call on an assembler that holds a value. -/
def allowed (w : World M L) : Act C → Bool
  | .new _ => true
  | .call i _ c => (w.asms[i]?.map (K.free · c)).getD true

/-- None of the actions does. -/
def Allowed : List (Act C) → World M L → Prop
  | [], _ => True
  | x :: r, w => K.allowed w x = true ∧ ∀ w', K.act w x = some w' → Allowed r w'

end BuilderKind

/-! ## Lists -/

/-- `laState`, /repo/ipldsch_minima.go:26-31. -/
inductive LaState where
  | initial | midValue | finished
  deriving DecidableEq, Repr

/-- A list assembler, e.g. `_Commit_Link_List__Assembler` (2204-2212): the slice
`w.x`, the marks and the pointer held by the element assembler. -/
structure ListAsm where
  arr : Nat
  len : Nat
  m : Maybe
  state : LaState
  cm : Maybe
  va : Option Ptr

/-- The calls on a list assembler and on its element assembler. -/
inductive ListCall (α : Type) where
  | assignOwn
  | beginList (hint : Int)
  | assembleValue
  | valueBegin
  | valueWrite (x : α)
  | valueDone
  | finish

namespace ListAsm

/-- A new builder; array 0 has no room, as a nil slice. -/
def fresh : ListAsm := ⟨0, 0, .absent, .initial, .absent, none⟩

/-- The `switch la.state` that opens `AssembleValue` and `Finish`, with
`valueFinishTidy` (2301-2312). -/
def ready (a : ListAsm) : Option ListAsm :=
  match a.state with
  | .initial => some a
  | .midValue =>
    if a.cm = .value then some { a with va := none, cm := .absent, state := .initial } else none
  | .finished => none

/-- `la.w.x = append(la.w.x, x)`. -/
def append {α : Type} (room : Nat) (zero x : α) (h : List (List α)) (a : ListAsm) :
    List (List α) × ListAsm :=
  let l := h[a.arr]?.getD []
  if a.len < l.length then (h.set a.arr (l.set a.len x), { a with len := a.len + 1 })
  else
    (h ++ [l.take a.len ++ x :: List.replicate room zero],
      { a with arr := h.length, len := a.len + 1 })

/-- One call, on the typed list assemblers (2213-2345, 4530-4662, 6313-6450) and on
the representation ones, which are the same text. `AssignNode` of a node of another
type (2286-2295) is `AssembleValue` and a value for each element and `Finish`; it
does not look at `m`. As in `TreeAsm`, what can be done through the element
assembler is `valueBegin`, `valueWrite` and `valueDone`. -/
def step {α : Type} (room : Nat) (zero : α) (h : List (List α)) (a : ListAsm)
    (b : Option ListAsm) : ListCall α → Option (List (List α) × ListAsm)
  | .assignOwn =>
    match a.m, b with
    | .absent, some b => some (h, { a with arr := b.arr, len := b.len, m := .value })
    | _, _ => none
  | .beginList hint =>
    match a.m with
    | .absent =>
      if hint ≤ 0 then some (h, { a with m := .midvalue })
      else some (h ++ [List.replicate hint.toNat zero],
        { a with m := .midvalue, arr := h.length, len := 0 })
    | _ => none
  | .assembleValue =>
    a.ready.map fun a =>
      let r := append room zero zero h a
      (r.1, { r.2 with state := .midValue, va := some ⟨r.2.arr, r.2.len - 1⟩ })
  | .valueBegin =>
    match a.cm with
    | .absent => some (h, { a with cm := .midvalue })
    | _ => none
  | .valueWrite x =>
    match a.cm with
    | .value | .null => none
    | _ =>
      match a.va with
      | none => some (h, a)
      | some p => some (h.modify p.arr (·.set p.idx x), a)
  | .valueDone =>
    match a.cm with
    | .value | .null => none
    | _ => some (h, { a with cm := .value })
  | .finish => a.ready.map fun a => (h, { a with state := .finished, m := .value })

end ListAsm

/-- List builders, with any room to spare when `append` moves the array. -/
def listKind {α : Type} (room : Nat) (zero : α) :
    BuilderKind (List (List α)) ListAsm (ListCall α) (List α) where
  init := [[]]
  fresh _ h := (h, .fresh)
  step h a b c := a.step room zero h b c
  done a := decide (a.m = .value)
  view h a := (h[a.arr]?.getD []).take a.len
  free a _ := decide (a.m ≠ .value)

/-! ## Trees -/

/-- The memory of trees: arrays of rows, and maps from names to rows.
/repo/ipldsch_types.go:126-134. -/
structure TreeMem where
  heap : List (List Row)
  maps : List (List (Bytes × Ptr))

/-- A tree assembler whose map may be shared: `map` says which one. The other
fields are those of `TreeAsm`, whose own heap and map are not used. -/
structure TreeRef where
  map : Option Nat
  loc : TreeAsm

/-- The calls on a tree builder. -/
inductive TreeAct where
  | assignOwn
  | call (c : TreeCall)

namespace TreeRef

/-- The builder with the memory it sees. -/
def see (M : TreeMem) (a : TreeRef) : TreeAsm :=
  { a.loc with heap := M.heap, map := a.map.bind (M.maps[·]?) }

/-- The builder and the memory after a call. `BeginMap` makes a new map
(6924-6925); every other call works on the map that is there. -/
def back (M : TreeMem) (a : TreeRef) (c : TreeCall) (s : TreeAsm) : TreeMem × TreeRef :=
  match c with
  | .beginMap _ => (⟨s.heap, M.maps ++ [s.map.getD []]⟩, ⟨some M.maps.length, s⟩)
  | _ =>
    match a.map with
    | none => (⟨s.heap, M.maps⟩, ⟨none, s⟩)
    | some i => (⟨s.heap, M.maps.set i (s.map.getD [])⟩, ⟨some i, s⟩)

/-- One call: `AssignNode` of a `*_Tree` (6966-6977) copies the slice and the map
reference; the others are those of `TreeAsm`. A call that returns an error leaves
its state behind. -/
def step (pol : TreeAsm → Nat) (M : TreeMem) (a : TreeRef) (b : Option TreeRef) :
    TreeAct → Option (TreeMem × TreeRef)
  | .assignOwn =>
    match a.loc.m, b with
    | .absent, some b =>
      some (M, ⟨b.map, { a.loc with arr := b.loc.arr, len := b.loc.len, m := .value }⟩)
    | _, _ => none
  | .call c =>
    match (see M a).step pol c with
    | .ok s | .err _ s => some (back M a c s)
    | .panic => none

end TreeRef

/-- What can be read from a tree: its rows in order, and the entry under a name. -/
structure TreeView where
  rows : List Row
  find : Bytes → Option TreeEntry

/-- Tree builders. -/
def treeKind (pol : TreeAsm → Nat) : BuilderKind TreeMem TreeRef TreeAct TreeView where
  init := ⟨[[]], []⟩
  fresh _ M := (M, ⟨none, .fresh⟩)
  step M a b c := a.step pol M b c
  done a := decide (a.loc.m = .value)
  view M a := ⟨(a.see M).table, (a.see M).lookup⟩
  free a _ := decide (a.loc.m ≠ .value)

/-! ## Commits and people -/

/-- An optional person of a commit and its assembler: `author.m`, `author.v` and
`ca_author.w` (/repo/ipldsch_types.go, `_PersonInfo__Maybe` at 3035-3038). -/
structure Slot where
  m : Maybe
  v : Option Nat
  w : Option Nat
  deriving DecidableEq, Repr

/-- Which person. -/
inductive Who where
  | author | committer
  deriving DecidableEq, Repr

/-- A commit builder, reduced to the two people. `mid` is the person under
assembly, `seen` the people in the mask `s`. Everything else in a commit is held
in place or in lists. /repo/ipldsch_satisfaction.go:469-487. -/
structure CommitAsm where
  author : Slot
  committer : Slot
  m : Maybe
  mid : Option Who
  seen : List Who
  finished : Bool
  deriving DecidableEq, Repr

/-- A builder of a person (its `w` points to `cell`), or of a commit. -/
inductive PeopleAsm where
  | person (cell : Nat) (m : Maybe) (finished : Bool)
  | commit (c : CommitAsm)

/-- The calls. On a person: `AssignNode` of a `*_PersonInfo`, `BeginMap`, a store
into a field, `Finish`. On a commit: `AssignNode` of a `*_Commit`, `BeginMap`, a key
for one of the people and the call for its value, the calls on the person's
assembler, and `Finish`. -/
inductive PeopleCall where
  | assignOwn
  | beginMap
  | write (f : PersonInfo → PersonInfo)
  | finish
  | openPerson (k : Who)
  | childAssign (k : Who)
  | childBegin (k : Who)
  | childWrite (k : Who) (f : PersonInfo → PersonInfo)
  | childFinish (k : Who)

namespace CommitAsm

def slot (a : CommitAsm) : Who → Slot
  | .author => a.author
  | .committer => a.committer

def setSlot (a : CommitAsm) (k : Who) (s : Slot) : CommitAsm :=
  match k with
  | .author => { a with author := s }
  | .committer => { a with committer := s }

/-- `valueFinishTidy`, cases 3 and 4 (635-652), and the `switch ma.state` around it. -/
def ready (a : CommitAsm) : Option CommitAsm :=
  if a.finished then none
  else match a.mid with
    | none => some a
    | some k =>
      if (a.slot k).m = .value then
        some { a.setSlot k { a.slot k with v := (a.slot k).w } with mid := none }
      else none

end CommitAsm

namespace PeopleAsm

/-- `*p`: a nil or wild pointer panics. -/
def load (M : List PersonInfo) (p : Option Nat) : Option PersonInfo := p.bind (M[·]?)

/-- One call.

* A person's `AssignNode` (3281-3318) with its own `w`, which is never nil.
* `write` covers the stores of the field assemblers and of `AssignNode` of a map
  that is not a `*_PersonInfo` (3301-3317); neither looks at `m`, and both need
  `state` not to be finished.
* A commit's `AssignNode` of a `*_Commit` (567-582).
* `openPerson` is `AssembleEntry` (740-749) or `AssembleKey`, the key and
  `AssembleValue` (848-855); a key that was seen before is an error and changes
  nothing.
* `childAssign` is `AssignNode` of a `*_PersonInfo` (3285-3300): with a nil pointer
  the node itself is taken over, otherwise it is copied into place.
* `childBegin` is `BeginMap` (3233-3245), `childWrite` a store through `ca_author.w`
  (which panics on a nil pointer), `childFinish` the mark set by `Finish`.

What the person's assembler refuses is left out, except for what its mark and its
pointer refuse, so more sequences are allowed here than in the code. -/
def step (M : List PersonInfo) (a : PeopleAsm) (b : Option PeopleAsm) (c : PeopleCall) :
    Option (List PersonInfo × PeopleAsm) :=
  match a, b, c with
  | .person p .absent fin, some (.person q _ _), .assignOwn =>
    (M[q]?).map fun x => (M.set p x, .person p .value fin)
  | .person p .absent fin, none, .beginMap => some (M, .person p .midvalue fin)
  | .person p m false, none, .write f => some (M.modify p f, .person p m false)
  | .person p _ false, none, .finish => some (M, .person p .value true)
  | .commit a, some (.commit b), .assignOwn =>
    if a.m = .absent then
      some (M, .commit { a with
        author := { a.author with m := b.author.m, v := b.author.v }
        committer := { a.committer with m := b.committer.m, v := b.committer.v }
        m := .value })
    else none
  | .commit a, none, .beginMap =>
    if a.m = .absent then some (M, .commit { a with m := .midvalue }) else none
  | .commit a, none, .openPerson k =>
    a.ready.map fun a =>
      if k ∈ a.seen then (M, .commit a)
      else (M, .commit { a.setSlot k { a.slot k with w := (a.slot k).v } with
        mid := some k, seen := k :: a.seen })
  | .commit a, some (.person q _ _), .childAssign k =>
    if (a.slot k).m = .absent then
      match (a.slot k).w with
      | none => some (M, .commit (a.setSlot k { a.slot k with m := .value, w := some q }))
      | some p =>
        (M[q]?).map fun x =>
          (M.set p x, .commit (a.setSlot k { a.slot k with m := .value }))
    else none
  | .commit a, none, .childBegin k =>
    if (a.slot k).m = .absent then
      match (a.slot k).w with
      | none => some (M ++ [PersonInfo.zero],
          .commit (a.setSlot k { a.slot k with m := .midvalue, w := some M.length }))
      | some _ => some (M, .commit (a.setSlot k { a.slot k with m := .midvalue }))
    else none
  | .commit a, none, .childWrite k f =>
    (a.slot k).w.map fun p => (M.modify p f, .commit a)
  | .commit a, none, .childFinish k =>
    some (M, .commit (a.setSlot k { a.slot k with m := .value }))
  | .commit a, none, .finish =>
    a.ready.map fun a => (M, .commit { a with finished := true, m := .value })
  | _, _, _ => none

/-- What can be read from the node: a person, or the two people of a commit. -/
def view (M : List PersonInfo) : PeopleAsm → List (Option PersonInfo)
  | .person p _ _ => [M[p]?]
  | .commit a =>
    [a.author, a.committer].map fun s => if s.m = .absent then none else load M s.v

/-- `Build` does not panic. -/
def done : PeopleAsm → Bool
  | .person _ m _ => decide (m = .value)
  | .commit a => decide (a.m = .value)

/-- The assembler that gets the call does not hold a value. -/
def free (a : PeopleAsm) (c : PeopleCall) : Bool :=
  !a.done && match a, c with
    | .commit a, .childAssign k => decide ((a.slot k).m ≠ .value)
    | .commit a, .childBegin k => decide ((a.slot k).m ≠ .value)
    | .commit a, .childWrite k _ => decide ((a.slot k).m ≠ .value)
    | .commit a, .childFinish k => decide ((a.slot k).m ≠ .value)
    | _, _ => true

/-- A builder of a commit. -/
def newCommit : PeopleAsm := .commit ⟨⟨.absent, none, none⟩, ⟨.absent, none, none⟩, .absent, none, [], false⟩

end PeopleAsm

/-- Builders of people (`new false`) and of commits (`new true`). -/
def peopleKind : BuilderKind (List PersonInfo) PeopleAsm PeopleCall (List (Option PersonInfo)) where
  init := []
  fresh t M := if t then (M, .newCommit) else (M ++ [PersonInfo.zero], .person M.length .absent false)
  step M a b c := a.step M b c
  done := PeopleAsm.done
  view := PeopleAsm.view
  free := PeopleAsm.free

end Verif
