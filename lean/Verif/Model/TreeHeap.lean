import Verif.Model.Assemble

/-!
# The tree assembler with its pointers (`/repo/ipldsch_satisfaction.go`)

`_Tree` keeps a table `t []_Tree__entry` and a map `m map[_String]*_TreeEntry`
whose values point into the table's backing array (/repo/ipldsch_types.go). The
table grows by `append`, which may move it to a new array while the map keeps
pointing into the old one. Here the backing arrays, the slice and the pointers are
explicit, and the growth policy of `append` is arbitrary.

`_Tree__Assembler` (6890-7119) and `_Tree__ReprAssembler` (7236-7453) are the same
text up to the types of the child assemblers.

The key and value assemblers `ka` and `va` share the mark `cm` with the parent.
What a caller can do through the value assembler is reduced to three steps:
`valueBegin` (`BeginMap`), `valueWrite e` (some store that leaves the entry equal
to `e`), and `valueDone` (the store of `Maybe_Value` that ends `AssignNode` or
`Finish`). The order in which the value assembler allows them is not modelled, so
every call sequence the code allows is covered and some more. Not modelled:
callers that keep the child assemblers of the value assembler (for its mode and
hash) and use them after the value is finished.
-/

namespace Verif

/-- `_Tree__entry`. /repo/ipldsch_types.go:131-134. -/
abbrev Row := Bytes × TreeEntry

/-- `_Tree__entry{}`. E.g. /repo/ipldsch_satisfaction.go:7372. -/
def Row.zero : Row := ([], ⟨[], .nil⟩)

/-- A pointer to the row `idx` of the backing array `arr`, or to its key or value
field. -/
structure Ptr where
  arr : Nat
  idx : Nat
  deriving DecidableEq, Repr

/-- A `_Tree` under assembly, with the memory it lives in. A nil slice is an
empty one, and a nil map is `none`. /repo/ipldsch_satisfaction.go:6901-6915. -/
structure TreeAsm where
  heap : List (List Row)
  arr : Nat
  len : Nat
  map : Option (List (Bytes × Ptr))
  m : Maybe
  state : MaState
  cm : Maybe
  ka : Option Ptr
  va : Option Ptr

/-- A call returns, returns an error, or panics. -/
inductive Ret (α : Type) where
  | ok (s : α)
  | err (e : Err) (s : α)
  | panic

namespace TreeAsm

/-- `NewBuilder()` / `Reset()`, 6880-6888. -/
def fresh : TreeAsm := ⟨[[]], 0, 0, none, .absent, .initial, .absent, none, none⟩

/-- The first binding of a key. -/
def find : List (Bytes × Ptr) → Bytes → Option Ptr
  | [], _ => none
  | (k', p) :: r, k => if k' = k then some p else find r k

/-- Go map read of a possibly nil map of pointers.
/repo/ipldsch_satisfaction.go:7051. -/
def get (m : Option (List (Bytes × Ptr))) (k : Bytes) : Option Ptr :=
  match m with
  | none => none
  | some l => find l k

/-- The rows of the table. -/
def table (s : TreeAsm) : List Row := (s.heap[s.arr]?.getD []).take s.len

/-- Memory read through a pointer. -/
def deref (s : TreeAsm) (p : Ptr) : Option Row := s.heap[p.arr]?.bind (·[p.idx]?)

/-- Memory write through a pointer. -/
def store (s : TreeAsm) (p : Ptr) (f : Row → Row) : TreeAsm :=
  { s with heap := s.heap.modify p.arr (·.modify p.idx f) }

/-- `ma.w.t = append(ma.w.t, r)`: in place if there is room, otherwise into a
new array with `pol s` rows to spare. /repo/ipldsch_satisfaction.go:7054. -/
def append (pol : TreeAsm → Nat) (s : TreeAsm) (r : Row) : TreeAsm :=
  let a := s.heap[s.arr]?.getD []
  if s.len < a.length then
    { s with heap := s.heap.set s.arr (a.set s.len r), len := s.len + 1 }
  else
    { s with
      heap := s.heap ++ [a.take s.len ++ r :: List.replicate (pol s) Row.zero]
      arr := s.heap.length
      len := s.len + 1 }

/-- `&ma.w.t[len(ma.w.t)-1]`. /repo/ipldsch_satisfaction.go:7055. -/
def last (s : TreeAsm) : Ptr := ⟨s.arr, s.len - 1⟩

/-- `ma.w.m[k] = p`; a nil map panics. /repo/ipldsch_satisfaction.go:7058. -/
def put (s : TreeAsm) (k : Bytes) (p : Ptr) : Ret TreeAsm :=
  match s.map with
  | none => .panic
  | some mm => .ok { s with map := some ((k, p) :: mm) }

/-- `BeginMap(sizeHint)`, 6916-6930. -/
def beginMap (hint : Int) (s : TreeAsm) : Ret TreeAsm :=
  match s.m with
  | .absent => .ok { s with
      m := .midvalue
      map := some []
      heap := s.heap ++ [List.replicate hint.toNat Row.zero]
      arr := s.heap.length
      len := 0 }
  | _ => .panic

/-- `valueFinishTidy`, 7018-7029. -/
def tidyValue (s : TreeAsm) : Option TreeAsm :=
  if s.cm = .value then some { s with va := none, cm := .absent, state := .initial } else none

/-- The `switch ma.state` that opens `AssembleEntry`, `AssembleKey` and
`Finish`. /repo/ipldsch_satisfaction.go:7031-7045, 7063-7077, 7102-7116. -/
def ready (s : TreeAsm) : Option TreeAsm :=
  match s.state with
  | .initial => some s
  | .midValue => s.tidyValue
  | _ => none

/-- `AssembleEntry(k)`, 7030-7061. -/
def assembleEntry (pol : TreeAsm → Nat) (k : Bytes) (s : TreeAsm) : Ret TreeAsm :=
  match s.ready with
  | none => .panic
  | some s =>
    match get s.map k with
    | some _ => .err .repeatedKey s
    | none =>
      let s := { append pol s (k, Row.zero.2) with state := .midValue }
      match s.put k s.last with
      | .ok s => .ok { s with va := some s.last }
      | r => r

/-- `AssembleKey()`, 7062-7082. -/
def assembleKey (pol : TreeAsm → Nat) (s : TreeAsm) : Ret TreeAsm :=
  match s.ready with
  | none => .panic
  | some s =>
    let s := append pol s Row.zero
    .ok { s with state := .midKey, ka := some s.last }

/-- `_String__Assembler.AssignString(k)` on the key assembler, 4285-4293. -/
def keyAssign (k : Bytes) (s : TreeAsm) : Ret TreeAsm :=
  match s.cm with
  | .value | .null => .panic
  | _ =>
    match s.ka with
    | none => .panic
    | some p => .ok { s.store p (fun r => (k, r.2)) with cm := .value }

/-- `AssembleValue()`, 7083-7100, with `keyFinishTidy`, 7003-7017. -/
def assembleValue (s : TreeAsm) : Ret TreeAsm :=
  match s.state with
  | .midKey =>
    if s.cm = .value then
      match s.table.getLast? with
      | none => .panic
      | some r =>
        match { s with ka := none, cm := .absent, state := .expectValue }.put r.1 s.last with
        | .ok s => .ok { s with va := some s.last, state := .midValue }
        | r => r
    else .panic
  | .expectValue => .ok { s with state := .midValue }
  | _ => .panic

/-- `BeginMap` on the value assembler, 7648-7660: takes the mark. -/
def valueBegin (s : TreeAsm) : Ret TreeAsm :=
  match s.cm with
  | .absent => .ok { s with cm := .midvalue }
  | _ => .panic

/-- A store through the value assembler. With a nil pointer the value assembler
allocates an entry of its own or adopts the one given (7656-7658, 7705-7709), and
this tree is not touched. -/
def valueWrite (e : TreeEntry) (s : TreeAsm) : Ret TreeAsm :=
  match s.cm with
  | .value | .null => .panic
  | _ =>
    match s.va with
    | none => .ok s
    | some p => .ok (s.store p (fun r => (r.1, e)))

/-- The value assembler finishes: `*na.m = schema.Maybe_Value`.
/repo/ipldsch_satisfaction.go:7847-7875. -/
def valueDone (s : TreeAsm) : Ret TreeAsm :=
  match s.cm with
  | .value | .null => .panic
  | _ => .ok { s with cm := .value }

/-- `Finish()`, 7101-7119. -/
def finish (s : TreeAsm) : Ret TreeAsm :=
  match s.ready with
  | none => .panic
  | some s => .ok { s with state := .finished, m := .value }

/-- `LookupByString` on the tree, 6791-6800: through the map's pointer. -/
def lookup (s : TreeAsm) (k : Bytes) : Option TreeEntry :=
  (get s.map k).bind fun p => (s.deref p).map (·.2)

end TreeAsm

/-- The calls on a tree assembler and on its child assemblers.
/repo/ipldsch_satisfaction.go:6966-7119. -/
inductive TreeCall where
  | beginMap (hint : Int)
  | assembleEntry (k : Bytes)
  | assembleKey
  | keyAssign (k : Bytes)
  | assembleValue
  | valueBegin
  | valueWrite (e : TreeEntry)
  | valueDone
  | finish
  deriving DecidableEq, Repr

/-- One call. -/
def TreeAsm.step (pol : TreeAsm → Nat) (s : TreeAsm) : TreeCall → Ret TreeAsm
  | .beginMap hint => s.beginMap hint
  | .assembleEntry k => s.assembleEntry pol k
  | .assembleKey => s.assembleKey pol
  | .keyAssign k => s.keyAssign k
  | .assembleValue => s.assembleValue
  | .valueBegin => s.valueBegin
  | .valueWrite e => s.valueWrite e
  | .valueDone => s.valueDone
  | .finish => s.finish

/-- A sequence of calls by a caller that carries on after errors; `none` if one of
them panics. -/
def TreeAsm.runCalls (pol : TreeAsm → Nat) : List TreeCall → TreeAsm → Option TreeAsm
  | [], s => some s
  | c :: r, s =>
    match s.step pol c with
    | .ok s => runCalls pol r s
    | .err _ s => runCalls pol r s
    | .panic => none

/-- The loop of `AssignNode` over the entries of a map that is not a `*_Tree`,
6983-6998 (7325-7340 in the representation assembler): every entry goes through
`AssembleKey` and `AssembleValue`, with no `BeginMap` before. When assigning a
value fails, what it has written so far is not modelled. -/
def TreeAsm.assignEntries (pol : TreeAsm → Nat) : List (Bytes × Node) → TreeAsm → Ret TreeAsm
  | [], s => s.finish
  | (k, v) :: r, s =>
    match s.assembleKey pol with
    | .ok s =>
      match s.keyAssign k with
      | .ok s =>
        match s.assembleValue with
        | .ok s =>
          match buildTreeEntry v with
          | .ok e =>
            match s.valueWrite e with
            | .ok s =>
              match s.valueDone with
              | .ok s => assignEntries pol r s
              | x => x
            | x => x
          | .err e => .err e s
          | .panic => .panic
        | x => x
      | x => x
    | x => x

/-- `AssignNode`, 6964-6999 and 7306-7341, given anything but a `*_Tree`. -/
def TreeAsm.assignNode (pol : TreeAsm → Nat) (n : Node) (s : TreeAsm) : Ret TreeAsm :=
  if n.isNull then
    match s.m with
    | .absent => .err .wrongKind s
    | _ => .panic
  else match n.mapIterator with
    | some es => s.assignEntries pol es
    | none => .err .wrongKind s

end Verif
