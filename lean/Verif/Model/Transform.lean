import Verif.Model.Builders
import Verif.Model.Lookup

/-!
# Editing an object with `traversal.FocusedTransform`

`FocusedTransform(n, p, fn, false)` of go-ipld-prime (go.mod:12) on a node of the
package: a builder of `n.Prototype()` is filled with the entries of `n`, and at the
end of the path with what `fn` returns. Here that function drives the assemblers of
/repo/ipldsch_satisfaction.go. Paths end at links: `FocusedTransform` would load the
block behind one and store a new one, which is not modelled. The texts of the errors
of `FocusedTransform` are not modelled either; all of them are `notExists` here. No
segment of a path is the empty string, which `FocusedTransform` takes for its end.
-/

namespace Verif

/-- `traversal.TransformFn`: given the node at the end of the path, or nil if there
is none, the node to put there. Its first argument, the progress, is left out. -/
abbrev Change := Option Node → Res Node

/-- `focusedTransform` with an assembler of a scalar: at the end of the path `AssignNode`,
before it an error, whether there is a node (a scalar or `ipld.Absent`) or not. -/
def leafEdit {α : Type} (assign : Node → Res α) (fn : Change) (n : Option Node) :
    List Seg → Res α
  | [] => do assign (← fn n)
  | _ :: _ => .err .notExists

variable {W : Type}

/-- `focusedTransform` on the child assembler that `AssembleValue` returned, then the
parent's reading of the value. /repo/ipldsch_satisfaction.go:821-875. -/
def Struct.childEnter (a : Asm W) (enter : W → Res W) : Res (Asm W) :=
  if a.cm ≠ .absent then .panic
  else match a.w with
    | some w => do
      let w ← enter w
      .ok { a with w := some w, cm := .value }
    | none => .panic

/-- The loop of `focusedTransform` over the entries of a map, and what follows it;
`enter i w n` is `focusedTransform` of the rest of the path on the assembler of field
`i`. `replaced` tells whether the segment was met. Calls the methods of
/repo/ipldsch_satisfaction.go:803-919. -/
def Struct.editEntries (S : Struct W) (enter : Nat → W → Option Node → Res W) (key : Bytes) :
    List (Bytes × Node) → Bool → Asm W → Res (Asm W)
  | [], true, a => S.finish a
  | [], false, a => do
    let a ← S.assembleKey a
    let a ← S.keyAssignString a key
    let a ← S.assembleValue a
    let a ← Struct.childEnter a fun w => enter a.f w none
    S.finish a
  | (k, v) :: r, replaced, a => do
    let a ← S.assembleKey a
    let a ← S.keyAssignNode a (.str k)
    let a ← S.assembleValue a
    if k = key then do
      let a ← Struct.childEnter a fun w => enter a.f w (some v)
      S.editEntries enter key r true a
    else do
      let a ← S.childAssign a v
      S.editEntries enter key r replaced a

/-- `focusedTransform` with an assembler of a struct whose pointer is `w`, then the
reading of the value by the parent or `Build`. E.g.
/repo/ipldsch_satisfaction.go:515-527, 563-600. -/
def Struct.edit (S : Struct W) (zero : W) (enter : List Seg → Nat → W → Option Node → Res W)
    (w : Option W) (fn : Change) (n : Option Node) : List Seg → Res W
  | [] => do S.child w (← fn n)
  | g :: p =>
    match n with
    | none => .err .notExists
    | some n =>
      if n.kind = .map then
        match n.mapIterator with
        | none => .panic
        | some es => do
          let a ← Struct.beginMap zero (Asm.fresh w)
          let a ← S.editEntries (enter p) g.string es false a
          a.build
      else .err .notExists

/-- The index that a segment means in a list: -1 for `-`. -/
def listSeg (g : Seg) : Res Int := if g.string = b!"-" then .ok (-1) else g.index

/-- The loop of `focusedTransform` over the elements of a list from the index `i` on,
and what follows it. `f` is `AssignNode` and `enter` is `focusedTransform` of the rest
of the path, both on the element assembler (e.g.
/repo/ipldsch_satisfaction.go:2571-2588); `acc` are the elements so far. -/
def editElems {α : Type} (f : Node → Res α) (enter : Option Node → Res α) (ti : Int) :
    Nat → List Node → Bool → List α → Res (List α)
  | _, [], true, acc => .ok acc
  | i, [], false, acc =>
    if (i : Int) = ti ∨ ti < 0 then do
      let a ← enter none
      .ok (acc ++ [a])
    else .err .notExists
  | i, n :: r, replaced, acc =>
    if ti = (i : Int) then do
      let a ← enter (some n)
      editElems f enter ti (i + 1) r true (acc ++ [a])
    else do
      let a ← f n
      editElems f enter ti (i + 1) r replaced (acc ++ [a])

/-- `focusedTransform` with an assembler of a list. `BeginList` with a positive size
hint starts an empty list (e.g. /repo/ipldsch_satisfaction.go:2220-2235). -/
def editList {α : Type} (assign : Node → Res (List α)) (f : Node → Res α)
    (enter : List Seg → Option Node → Res α) (fn : Change) (n : Option Node) :
    List Seg → Res (List α)
  | [] => do assign (← fn n)
  | g :: p =>
    match n with
    | none => .err .notExists
    | some n =>
      if n.kind = .list then
        match n.listIterator with
        | none => .panic
        | some ns => do
          let ti ← listSeg g
          editElems f (enter p) ti 0 ns false []
      else .err .notExists

/-- The assemblers of the fields of a person, 3445-3478. -/
def personEnter (fn : Change) (p : List Seg) : Nat → PersonInfo → Option Node → Res PersonInfo
  | 0, w, n => do .ok { w with date := ← leafEdit assignString fn n p }
  | 1, w, n => do .ok { w with timezone := ← leafEdit assignString fn n p }
  | 2, w, n => do .ok { w with email := ← leafEdit assignString fn n p }
  | 3, w, n => do .ok { w with name := ← leafEdit assignString fn n p }
  | _, _, _ => .panic

/-- `focusedTransform` with an assembler of a person, 3233-3245. -/
def editPerson (fn : Change) (w : Option PersonInfo) (n : Option Node) (p : List Seg) :
    Res PersonInfo :=
  personStruct.edit .zero (personEnter fn) w fn n p

/-- The assemblers of the fields of a tree entry, 7820-7846. -/
def treeEntryEnter (fn : Change) (p : List Seg) : Nat → TreeEntry → Option Node → Res TreeEntry
  | 0, w, n => do .ok { w with mode := ← leafEdit assignString fn n p }
  | 1, w, n => do .ok { w with hash := ← leafEdit assignLink fn n p }
  | _, _, _ => .panic

/-- `focusedTransform` with an assembler of a tree entry, 7648-7660. -/
def editTreeEntry (fn : Change) (n : Option Node) (p : List Seg) : Res TreeEntry :=
  treeEntryStruct.edit ⟨[], .nil⟩ (treeEntryEnter fn) (some ⟨[], .nil⟩) fn n p

/-- The assemblers of the fields of a tag, 5380-5420. -/
def tagEnter (fn : Change) (p : List Seg) : Nat → Tag → Option Node → Res Tag
  | 0, w, n => do .ok { w with object := ← leafEdit assignLink fn n p }
  | 1, w, n => do .ok { w with typ := ← leafEdit assignString fn n p }
  | 2, w, n => do .ok { w with tag := ← leafEdit assignString fn n p }
  | 3, w, n => do .ok { w with tagger := ← editPerson fn (some w.tagger) n p }
  | 4, w, n => do .ok { w with message := ← leafEdit assignString fn n p }
  | _, _, _ => .panic

/-- `focusedTransform` with an assembler of a tag, 5148-5160. -/
def editTag (fn : Change) (n : Option Node) (p : List Seg) : Res Tag :=
  tagStruct.edit .zero (tagEnter fn) (some .zero) fn n p

/-- `focusedTransform` with an assembler of a list of links, 2220-2235. -/
def editLinkList (fn : Change) (acc : List Link) (n : Option Node) (p : List Seg) :
    Res (List Link) :=
  editList (assignLinkList acc) assignCommitLink (fun p n => leafEdit assignCommitLink fn n p) fn n p

/-- `focusedTransform` with an assembler of a list of strings, 4537-4552. -/
def editStringList (fn : Change) (acc : List Bytes) (n : Option Node) (p : List Seg) :
    Res (List Bytes) :=
  editList (assignStringList acc) assignString (fun p n => leafEdit assignString fn n p) fn n p

/-- `focusedTransform` with an assembler of a list of tags, 6320-6335. -/
def editTagList (fn : Change) (acc : List Tag) (n : Option Node) (p : List Seg) :
    Res (List Tag) :=
  editList (assignTagList acc) buildTag (fun p n => editTag fn n p) fn n p

/-- The assemblers of the fields of a commit, 821-875. Those of author and committer
have no person to write to: `BeginMap` makes one (3241-3243), `AssignNode` does not. -/
def commitEnter (fn : Change) (p : List Seg) : Nat → Commit → Option Node → Res Commit
  | 0, w, n => do .ok { w with tree := ← leafEdit assignTreeLink fn n p }
  | 1, w, n => do .ok { w with parents := ← editLinkList fn w.parents n p }
  | 2, w, n => do .ok { w with message := ← leafEdit assignString fn n p }
  | 3, w, n => do .ok { w with author := ← assignOnce w.author (editPerson fn none n p) }
  | 4, w, n => do .ok { w with committer := ← assignOnce w.committer (editPerson fn none n p) }
  | 5, w, n => do
    .ok { w with encoding := ← assignOnce w.encoding (leafEdit assignString fn n p) }
  | 6, w, n => do
    .ok { w with signature := ← assignOnce w.signature (leafEdit assignGpgSig fn n p) }
  | 7, w, n => do .ok { w with mergetag := ← editTagList fn w.mergetag n p }
  | 8, w, n => do .ok { w with other := ← editStringList fn w.other n p }
  | _, _, _ => .panic

/-- `focusedTransform` with an assembler of a commit, 515-527. -/
def editCommit (fn : Change) (n : Option Node) (p : List Seg) : Res Commit :=
  commitStruct.edit .zero (commitEnter fn) (some .zero) fn n p

/-- A result without the state that an error leaves. -/
def Ret.res {α : Type} : Ret α → Res α
  | .ok s => .ok s
  | .err e _ => .err e
  | .panic => .panic

/-- A value assigned through the value assembler of a tree; `deep` if by `BeginMap`
and its entries. /repo/ipldsch_satisfaction.go:7648-7660, 7690-7724. -/
def TreeAsm.setValue (deep : Bool) (r : Res TreeEntry) (s : TreeAsm) : Res TreeAsm := do
  let s ← (if deep then s.valueBegin else .ok s).res
  let e ← r
  let s ← (s.valueWrite e).res
  s.valueDone.res

/-- The loop of `focusedTransform` over the entries of a tree, and what follows it, on
`_Tree__Assembler` (6966-7119) or its twin (7306-7453). -/
def TreeAsm.editEntries (pol : TreeAsm → Nat) (deep : Bool)
    (enter : Option Node → Res TreeEntry) (key : Bytes) :
    List (Bytes × Node) → Bool → TreeAsm → Res TreeAsm
  | [], true, s => s.finish.res
  | [], false, s => do
    let s ← (s.assembleKey pol).res
    let s ← (s.keyAssign key).res
    let s ← s.assembleValue.res
    let s ← s.setValue deep (enter none)
    s.finish.res
  | (k, v) :: r, replaced, s => do
    let s ← (s.assembleKey pol).res
    let s ← (s.keyAssign k).res
    let s ← s.assembleValue.res
    if k = key then do
      let s ← s.setValue deep (enter (some v))
      TreeAsm.editEntries pol deep enter key r true s
    else do
      let s ← s.setValue false (buildTreeEntry v)
      TreeAsm.editEntries pol deep enter key r replaced s

/-- `focusedTransform` with a fresh builder of trees. -/
def editTree (pol : TreeAsm → Nat) (fn : Change) (n : Node) : List Seg → Res Tree
  | [] => do assignTree pol (← fn (some n))
  | g :: p =>
    match n.mapIterator with
    | none => .panic
    | some es => do
      let s ← (TreeAsm.fresh.beginMap (es.length + 1)).res
      let s ← s.editEntries pol (!p.isEmpty) (fun n => editTreeEntry fn n p) g.string es false
      .ok s.built

/-- `FocusedTransform(n, path, fn, false)` on a node of the package or, with `repr`,
on its representation. Both prototypes build typed nodes. -/
def transform (pol : TreeAsm → Nat) (repr : Bool) (v : Own) (fn : Change) (path : List Seg) :
    Res Own :=
  let n := if repr then v.representation else .own v
  match v with
  | .commit _ => do .ok (.commit (← editCommit fn (some n) path))
  | .tag _ => do .ok (.tag (← editTag fn (some n) path))
  | .tree _ => do .ok (.tree (← editTree pol fn n path))
  | .person _ => do .ok (.person (← editPerson fn (some .zero) (some n) path))
  | .treeEntry _ => do .ok (.treeEntry (← editTreeEntry fn (some n) path))
  | .linkList _ => do .ok (.linkList (← editLinkList fn [] (some n) path))
  | .stringList _ => do .ok (.stringList (← editStringList fn [] (some n) path))
  | .tagList _ => do .ok (.tagList (← editTagList fn [] (some n) path))
  | v => leafEdit (v.proto.assignNode pol) fn (some n) path

end Verif
