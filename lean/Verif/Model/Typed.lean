import Verif.Model.Lookup
import Verif.Model.TreeNode

/-!
# Typed accessors

The methods of /repo/ipldsch_satisfaction.go that return the package's own types
in place of `ipld.Node`: `FieldX`, `Lookup`, `LookupMaybe`, `Iterator` and the
`MaybeX` types. A Go pointer is an `Option`, `none` is nil; calling a method that
reads its receiver through a nil pointer is a run-time panic.
-/

namespace Verif

/-- `schema.Maybe` of go-ipld-prime (go.mod:12). `other` stands for the marks that
assemblers keep in the same byte (/repo/ipldsch_minima.go:12-13). -/
inductive MaybeState where
  | absent | null | value | other
  deriving DecidableEq, Repr

/-- `_X__Maybe`: 19, 244, 1817, 2059, 2620, 2825, 3035, 4137, 4376, 4941, 6159,
6751, 7468, 8394. Some of them hold the value and some a pointer to it. -/
structure MaybeOf (α : Type) where
  m : MaybeState
  v : Option α
  deriving DecidableEq, Repr

/-- How the model's optional fields look in memory. -/
def MaybeOf.ofOption {α : Type} : Option α → MaybeOf α
  | none => ⟨.absent, none⟩
  | some a => ⟨.value, some a⟩

/-- `IsNull`, e.g. 250-252. -/
def maybeIsNull {α : Type} : Option (MaybeOf α) → Res Bool
  | none => .panic
  | some m => .ok (m.m == .null)

/-- `IsAbsent`, e.g. 253-255. -/
def maybeIsAbsent {α : Type} : Option (MaybeOf α) → Res Bool
  | none => .panic
  | some m => .ok (m.m == .absent)

/-- `Exists`, e.g. 256-258. -/
def maybeExists {α : Type} : Option (MaybeOf α) → Res Bool
  | none => .panic
  | some m => .ok (m.m == .value)

/-- `AsNode`, e.g. 259-270. A nil pointer inside a `MaybeX` with the mark `value`
does not occur in what the package builds and is put down as a panic. -/
def maybeAsNode {α : Type} (f : α → Own) : Option (MaybeOf α) → Res Node
  | none => .panic
  | some m =>
    match m.m with
    | .absent => .ok .absent
    | .null => .ok .null
    | .value =>
      match m.v with
      | some a => .ok (.own (f a))
      | none => .panic
    | .other => .panic

/-- `Must`, e.g. 271-276. -/
def maybeMust {α : Type} (m : Option (MaybeOf α)) : Res (Option α) := do
  if !(← maybeExists m) then .panic
  else
    match m with
    | some m => .ok m.v
    | none => .panic

/-! The `FieldX` methods return the address of a field of the receiver, which
they get as a copy. -/

/-- `_Commit.FieldTree`, 216-218. -/
def Commit.fieldTree (c : Commit) : Option Link := some c.tree
/-- `_Commit.FieldParents`, 219-221. -/
def Commit.fieldParents (c : Commit) : Option (List Link) := some c.parents
/-- `_Commit.FieldMessage`, 222-224. -/
def Commit.fieldMessage (c : Commit) : Option Bytes := some c.message
/-- `_Commit.FieldAuthor`, 225-227. -/
def Commit.fieldAuthor (c : Commit) : Option (MaybeOf PersonInfo) := some (.ofOption c.author)
/-- `_Commit.FieldCommitter`, 228-230. -/
def Commit.fieldCommitter (c : Commit) : Option (MaybeOf PersonInfo) := some (.ofOption c.committer)
/-- `_Commit.FieldEncoding`, 231-233. -/
def Commit.fieldEncoding (c : Commit) : Option (MaybeOf Bytes) := some (.ofOption c.encoding)
/-- `_Commit.FieldSignature`, 234-236. -/
def Commit.fieldSignature (c : Commit) : Option (MaybeOf Bytes) := some (.ofOption c.signature)
/-- `_Commit.FieldMergetag`, 237-239. -/
def Commit.fieldMergetag (c : Commit) : Option (List Tag) := some c.mergetag
/-- `_Commit.FieldOther`, 240-242. -/
def Commit.fieldOther (c : Commit) : Option (List Bytes) := some c.other
/-- `_PersonInfo.FieldDate`, 3022-3024. -/
def PersonInfo.fieldDate (p : PersonInfo) : Option Bytes := some p.date
/-- `_PersonInfo.FieldTimezone`, 3025-3027. -/
def PersonInfo.fieldTimezone (p : PersonInfo) : Option Bytes := some p.timezone
/-- `_PersonInfo.FieldEmail`, 3028-3030. -/
def PersonInfo.fieldEmail (p : PersonInfo) : Option Bytes := some p.email
/-- `_PersonInfo.FieldName`, 3031-3033. -/
def PersonInfo.fieldName (p : PersonInfo) : Option Bytes := some p.name
/-- `_Tag.FieldObject`, 4925-4927. -/
def Tag.fieldObject (t : Tag) : Option Link := some t.object
/-- `_Tag.FieldType`, 4928-4930. -/
def Tag.fieldType (t : Tag) : Option Bytes := some t.typ
/-- `_Tag.FieldTag`, 4931-4933. -/
def Tag.fieldTag (t : Tag) : Option Bytes := some t.tag
/-- `_Tag.FieldTagger`, 4934-4936. -/
def Tag.fieldTagger (t : Tag) : Option PersonInfo := some t.tagger
/-- `_Tag.FieldMessage`, 4937-4939. -/
def Tag.fieldMessage (t : Tag) : Option Bytes := some t.message
/-- `_TreeEntry.FieldMode`, 7461-7463. -/
def TreeEntry.fieldMode (e : TreeEntry) : Option Bytes := some e.mode
/-- `_TreeEntry.FieldHash`, 7464-7466. -/
def TreeEntry.fieldHash (e : TreeEntry) : Option Link := some e.hash

/-- `Lookup` of the lists: 2017-2023, 4334-4340, 6117-6123. -/
def typedIndex {α : Type} (x : List α) (idx : Int) : Res (Option α) :=
  if (x.length : Int) ≤ idx then .ok none
  else do .ok (some (← goIndex x idx))

/-- `LookupMaybe` of the lists: 2024-2033, 4341-4350, 6124-6133. -/
def typedIndexMaybe {α : Type} (x : List α) (idx : Int) : Res (Option (MaybeOf α)) :=
  if (x.length : Int) ≤ idx then .ok none
  else do
    let v ← goIndex x idx
    .ok (some ⟨.value, some v⟩)

/-- `X_List__Itr`: 2041-2044, 4358-4361, 6141-6144. -/
structure TypedListItr (α : Type) where
  x : List α
  idx : Nat

/-- `Next` of `X_List__Itr`: 2046-2054, 4363-4371, 6146-6154. -/
def TypedListItr.next {α : Type} (i : TypedListItr α) : Res ((Int × Option α) × TypedListItr α) :=
  if i.idx ≥ i.x.length then .ok ((-1, none), i)
  else do
    let a ← goIndex i.x i.idx
    .ok (((i.idx : Int), some a), { i with idx := i.idx + 1 })

/-- `Done` of `X_List__Itr`: 2055-2057, 4372-4374, 6155-6157. -/
def TypedListItr.done {α : Type} (i : TypedListItr α) : Bool := i.idx ≥ i.x.length

/-- The client's loop `for !itr.Done() { idx, v := itr.Next() }`, with a bound on
the number of steps. -/
def TypedListItr.run {α : Type} : Nat → TypedListItr α → Res (List (Int × Option α))
  | 0, i => if i.done then .ok [] else .err .fuel
  | n + 1, i =>
    if i.done then .ok []
    else do
      let (e, i) ← i.next
      let es ← TypedListItr.run n i
      .ok (e :: es)

/-- The client's loop that stops at the first nil value in place of asking
`Done`. -/
def TypedListItr.runNil {α : Type} : Nat → TypedListItr α → Res (List (Int × Option α))
  | 0, _ => .err .fuel
  | n + 1, i => do
    let (e, i) ← i.next
    match e.2 with
    | none => .ok []
    | some _ => do
      let es ← TypedListItr.runNil n i
      .ok (e :: es)

/-- `Tree.Lookup`, 6708-6714: `n.m[*k]`, a panic if `k` is nil. -/
def typedLookup (t : Tree) (k : Option Bytes) : Res (Option TreeEntry) :=
  match k with
  | none => .panic
  | some k => .ok (mapGet t.m k)

/-- `Tree.LookupMaybe`, 6715-6724. -/
def typedLookupMaybe (t : Tree) (k : Option Bytes) : Res (Option (MaybeOf TreeEntry)) :=
  match k with
  | none => .panic
  | some k =>
    match mapGet t.m k with
    | none => .ok (some ⟨.absent, none⟩)
    | some v => .ok (some ⟨.value, some v⟩)

/-- `Tree__Itr`, 6732-6735. -/
structure TypedTreeItr where
  n : Tree
  idx : Nat

/-- `Tree__Itr.Next`, 6737-6746. -/
def TypedTreeItr.next (i : TypedTreeItr) : Option (Bytes × TreeEntry) × TypedTreeItr :=
  match i.n.t[i.idx]? with
  | none => (none, i)
  | some r => (some r, { i with idx := i.idx + 1 })

/-- `Tree__Itr.Done`, 6747-6749. -/
def TypedTreeItr.done (i : TypedTreeItr) : Bool := i.idx ≥ i.n.t.length

/-- The loop `for !itr.Done() { k, v := itr.Next() }`, with a bound on the number
of steps. -/
def TypedTreeItr.run : Nat → TypedTreeItr → Res (List (Option (Bytes × TreeEntry)))
  | 0, i => if i.done then .ok [] else .err .fuel
  | n + 1, i =>
    if i.done then .ok []
    else do
      let es ← TypedTreeItr.run n i.next.2
      .ok (i.next.1 :: es)

end Verif
