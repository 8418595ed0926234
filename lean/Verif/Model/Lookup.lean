import Verif.Model.Iter
import Verif.Model.Num

/-!
# Lookups by index, by node and by path segment, and list iterators

`LookupByIndex`, `LookupByNode`, `LookupBySegment` and `ListIterator` of the
generated types in /repo/ipldsch_satisfaction.go, typed and representation view.
`LookupByString` is in `Verif.Model.Node`.
-/

namespace Verif

/-- `l[i]` of a Go slice: a run-time panic when `i` is out of range. Used in
/repo/ipldsch_satisfaction.go:2113. -/
def goIndex {α : Type} (l : List α) (i : Int) : Res α :=
  if i < 0 then .panic
  else match l[i.toNat]? with
    | some a => .ok a
    | none => .panic

/-- `datamodel.PathSegment` of go-ipld-prime (go.mod:12): a string or a
non-negative number; `i < 0` marks a string. -/
structure Seg where
  s : Bytes
  i : Int
  deriving DecidableEq, Repr

/-- `PathSegmentOfString`. -/
def Seg.ofString (s : Bytes) : Seg := ⟨s, -1⟩

/-- `PathSegmentOfInt`. -/
def Seg.ofInt (i : Int) : Seg := ⟨[], i⟩

/-- `PathSegment.String()`. -/
def Seg.string (g : Seg) : Bytes := if g.i < 0 then g.s else decimal g.i.toNat

/-- `PathSegment.Index()`: the number, or `strconv.ParseInt(s, 10, 64)`, which
accepts what `strconv.Atoi` accepts. -/
def Seg.index (g : Seg) : Res Int := if g.i < 0 then atoi g.s else .ok g.i

/-- `AsInt()` of the keys a client can pass: only `basicnode` ints are of that
kind, the package has none. E.g. /repo/ipldsch_satisfaction.go:426-428. -/
def Node.asInt : Node → Res Int
  | .int i => .ok i
  | _ => .err .wrongKind

/-- `LookupByIndex`, typed view: 2109-2115 (`Commit_Link_List`), 4426-4432
(`String_List`), 6209-6215 (`Tag_List`). The other types return `ErrWrongKind`
(e.g. 338, 3102, 4183, 6814). -/
def Own.lookupIndex (v : Own) (idx : Int) : Res Node :=
  match v with
  | .linkList x =>
    if (x.length : Int) ≤ idx then .err .notExists
    else do .ok (.own (.commitLink (← goIndex x idx)))
  | .stringList x =>
    if (x.length : Int) ≤ idx then .err .notExists
    else do .ok (.own (.string (← goIndex x idx)))
  | .tagList x =>
    if (x.length : Int) ≤ idx then .err .notExists
    else do .ok (.own (.tag (← goIndex x idx)))
  | _ => .err .wrongKind

/-- `v.(X).Representation()` of a typed node that a typed lookup returned. E.g.
/repo/ipldsch_satisfaction.go:2373-2379. -/
def Node.reprOf : Node → Node
  | .own v => v.representation
  | n => n

/-- `LookupByIndex`, representation view: 2373-2379, 4690-4696, 6473-6479; the
other types return `ErrWrongKind` (e.g. 1106, 7154). -/
def Own.reprLookupIndex (v : Own) (idx : Int) : Res Node := do
  .ok (← v.lookupIndex idx).reprOf

/-- `LookupByNode`, typed view. Structs (331-337, 3095-3101, 5004-5010,
7522-7528) ask the key for a string, lists (2102-2108, 4419-4425, 6202-6208) for
an int, `Tree` (6802-6812) panics unless the key is a `String` of this package;
scalars return `ErrWrongKind`. -/
def Own.lookupNode (v : Own) (key : Node) : Res Node :=
  match v with
  | .person _ | .treeEntry _ | .tag _ | .commit _ => do
    let ks ← key.asString
    v.lookup ks
  | .linkList _ | .stringList _ | .tagList _ => do
    let idx ← key.asInt
    v.lookupIndex idx
  | .tree t =>
    match key with
    | .own (.string k) =>
      match mapGet t.m k with
      | some e => .ok (.own (.treeEntry e))
      | none => .err .notExists
    | _ => .panic
  | _ => .err .wrongKind

/-- `LookupByNode`, representation view. Structs 1099-1105, 3633-3639,
5586-5592, 7972-7978; lists 2366-2372, 4683-4689, 6466-6472; `Tree` 7147-7153. -/
def Own.reprLookupNode (v : Own) (key : Node) : Res Node :=
  match v with
  | .person _ | .treeEntry _ | .tag _ | .commit _ => do
    let ks ← key.asString
    v.reprLookup ks
  | _ => do .ok (← v.lookupNode key).reprOf

/-- `LookupBySegment`, typed view. Maps (341, 3105, 5014, 6817, 7532) look up the
segment's string, lists (2116-2122, 4433-4439, 6216-6222) its index;
`ErrInvalidSegmentForList` wraps the error of `Index()`. Scalars return
`ErrWrongKind`. -/
def Own.lookupSegment (v : Own) (seg : Seg) : Res Node :=
  match v with
  | .person _ | .treeEntry _ | .tag _ | .commit _ | .tree _ => v.lookup seg.string
  | .linkList _ | .stringList _ | .tagList _ => do
    let i ← seg.index
    v.lookupIndex i
  | _ => .err .wrongKind

/-- `LookupBySegment`, representation view: 1109, 3643, 5596, 7157, 7982;
2380-2386, 4697-4703, 6480-6486. -/
def Own.reprLookupSegment (v : Own) (seg : Seg) : Res Node :=
  match v with
  | .person _ | .treeEntry _ | .tag _ | .commit _ | .tree _ => v.reprLookup seg.string
  | .linkList _ | .stringList _ | .tagList _ => do
    let i ← seg.index
    v.reprLookupIndex i
  | _ => .err .wrongKind

/-- `LookupBySegment` of any node reached from a node of the package. The only
foreign node among these is `ipld.Absent`, which returns `ErrWrongKind`; lookups
in foreign maps and lists are not modelled and also put here. E.g.
/repo/ipldsch_satisfaction.go:341-343, 2116-2122. -/
def Node.lookupSegment : Node → Seg → Res Node
  | .own v, g => v.lookupSegment g
  | .repr v, g => v.reprLookupSegment g
  | _, _ => .err .wrongKind

/-- Following a path: `LookupBySegment` once for every segment, as go-ipld-prime's
`traversal` does between links. -/
def Node.walk : Node → List Seg → Res Node
  | n, [] => .ok n
  | n, g :: gs => do Node.walk (← n.lookupSegment g) gs

/-- `_X__ListItr`: the slice and the index.
/repo/ipldsch_satisfaction.go:2130-2133. -/
structure ListItr (α : Type) where
  x : List α
  idx : Nat

/-- `Next`: 2135-2144, 4452-4461, 6235-6244. -/
def ListItr.next {α : Type} (f : α → Own) (i : ListItr α) : Res ((Int × Node) × ListItr α) :=
  if i.idx ≥ i.x.length then .err .iterOver
  else do
    let a ← goIndex i.x i.idx
    .ok (((i.idx : Int), .own (f a)), { i with idx := i.idx + 1 })

/-- `Next` of the representation view's iterator: 2396-2402, 4713-4719,
6496-6502. -/
def ListItr.reprNext {α : Type} (f : α → Own) (i : ListItr α) : Res ((Int × Node) × ListItr α) := do
  let ((idx, v), i) ← i.next f
  .ok ((idx, v.reprOf), i)

/-- `Done`: 2145-2147, 4462-4464, 6245-6247; the representation view's 2403,
4720, 6503. -/
def ListItr.done {α : Type} (i : ListItr α) : Bool := i.idx ≥ i.x.length

/-- The client's loop `for !itr.Done() { idx, v, err := itr.Next() }`, with a bound
on the number of steps. -/
def ListItr.run {α : Type} (next : ListItr α → Res ((Int × Node) × ListItr α)) :
    Nat → ListItr α → Res (List (Int × Node))
  | 0, i => if i.done then .ok [] else .err .fuel
  | n + 1, i =>
    if i.done then .ok []
    else do
      let (e, i) ← next i
      let es ← ListItr.run next n i
      .ok (e :: es)

/-- The loop over the typed view's `ListIterator()` (2126, 4443, 6226), with a
bound on the number of steps; `none` is the nil iterator of the other types. -/
def Own.listLoop (v : Own) (n : Nat) : Option (Res (List (Int × Node))) :=
  match v with
  | .linkList x => some (ListItr.run (ListItr.next .commitLink) n ⟨x, 0⟩)
  | .stringList x => some (ListItr.run (ListItr.next .string) n ⟨x, 0⟩)
  | .tagList x => some (ListItr.run (ListItr.next .tag) n ⟨x, 0⟩)
  | _ => none

/-- The same for the representation view (2390, 4707, 6490). -/
def Own.reprListLoop (v : Own) (n : Nat) : Option (Res (List (Int × Node))) :=
  match v with
  | .linkList x => some (ListItr.run (ListItr.reprNext .commitLink) n ⟨x, 0⟩)
  | .stringList x => some (ListItr.run (ListItr.reprNext .string) n ⟨x, 0⟩)
  | .tagList x => some (ListItr.run (ListItr.reprNext .tag) n ⟨x, 0⟩)
  | _ => none

end Verif
