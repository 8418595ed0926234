import Verif.Model.Lookup

/-!
# The methods of a node that only depend on what kind it is

Every generated type in /repo/ipldsch_satisfaction.go has the methods `Kind`,
`Length`, `IsAbsent`, `IsNull`, `MapIterator`, `ListIterator`, six `AsX` methods
and four lookups. Those that do not fit the type hand the call to a `mixins.X` of
go-ipld-prime (go.mod:12), which answers `ErrWrongKind`. The generated code names
the mixin and the type anew in every method, and writes `Kind` by hand; this file
keeps these apart too. Of the fields of `ErrWrongKind` the set of appropriate
kinds, which is fixed in go-ipld-prime, is left out.
-/

namespace Verif

/-- The methods that can answer `ErrWrongKind`. -/
inductive Method where
  | lookupByString | lookupByNode | lookupByIndex | lookupBySegment
  | asBool | asInt | asFloat | asString | asBytes | asLink
  deriving DecidableEq, Repr

/-- `ipld.ErrWrongKind` (e.g. /repo/ipldsch_satisfaction.go:584). -/
structure WrongKind where
  typeName : Bytes
  method : Method
  actual : Kind
  deriving DecidableEq, Repr

/-- What an `AsX` method answers. -/
inductive Ans (α : Type) where
  | ok (a : α)
  | wrong (e : WrongKind)
  deriving DecidableEq, Repr

/-- The error of an answer. -/
def Ans.refusal {α : Type} : Ans α → Option WrongKind
  | .ok _ => none
  | .wrong e => some e

/-- The methods of one node. A lookup that is handed to a mixin is `some` error;
`none` is a lookup that the type implements (`Verif.Model.Node`,
`Verif.Model.Lookup`). Of an iterator only whether it is nil is kept. -/
structure Face where
  kind : Kind
  lookupByString : Option WrongKind
  lookupByNode : Option WrongKind
  lookupByIndex : Option WrongKind
  lookupBySegment : Option WrongKind
  mapIterator : Bool
  listIterator : Bool
  length : Int
  isAbsent : Bool
  isNull : Bool
  asBool : Ans Bool
  asInt : Ans Int
  asFloat : Ans Nat
  asString : Ans Bytes
  asBytes : Ans Bytes
  asLink : Ans Link

/-- `mixins.Map`, `mixins.List`, `mixins.String`, `mixins.Bytes`, `mixins.Link`
of go-ipld-prime (go.mod:12): the error of one method. -/
def mixin (k : Kind) (name : Bytes) (m : Method) : WrongKind := ⟨name, m, k⟩

/-- `Blob`: 56-103. Its `_Blob__Repr` is the same type (209). -/
def blobFace (x : Bytes) : Face where
  kind := .bytes
  lookupByString := some (mixin .bytes b!"ipldgit.Blob" .lookupByString)
  lookupByNode := some (mixin .bytes b!"ipldgit.Blob" .lookupByNode)
  lookupByIndex := some (mixin .bytes b!"ipldgit.Blob" .lookupByIndex)
  lookupBySegment := some (mixin .bytes b!"ipldgit.Blob" .lookupBySegment)
  mapIterator := false
  listIterator := false
  length := -1
  isAbsent := false
  isNull := false
  asBool := .wrong (mixin .bytes b!"ipldgit.Blob" .asBool)
  asInt := .wrong (mixin .bytes b!"ipldgit.Blob" .asInt)
  asFloat := .wrong (mixin .bytes b!"ipldgit.Blob" .asFloat)
  asString := .wrong (mixin .bytes b!"ipldgit.Blob" .asString)
  asBytes := .ok x
  asLink := .wrong (mixin .bytes b!"ipldgit.Blob" .asLink)

/-- The string types, `String` (4174-4221) and `GpgSig` (2657-2704); `name` is the
type name they put in their errors. Their representation types are the same types
(4327, 2810). -/
def stringFace (name : Bytes) (x : Bytes) : Face where
  kind := .string
  lookupByString := some (mixin .string name .lookupByString)
  lookupByNode := some (mixin .string name .lookupByNode)
  lookupByIndex := some (mixin .string name .lookupByIndex)
  lookupBySegment := some (mixin .string name .lookupBySegment)
  mapIterator := false
  listIterator := false
  length := -1
  isAbsent := false
  isNull := false
  asBool := .wrong (mixin .string name .asBool)
  asInt := .wrong (mixin .string name .asInt)
  asFloat := .wrong (mixin .string name .asFloat)
  asString := .ok x
  asBytes := .wrong (mixin .string name .asBytes)
  asLink := .wrong (mixin .string name .asLink)

/-- The link types, `Link` (2862-2909), `Tree_Link` (8431-8478) and `Commit_Link`
(1854-1901). Their representation types are the same types (3015, 8587, 2010). -/
def linkFace (name : Bytes) (x : Link) : Face where
  kind := .link
  lookupByString := some (mixin .link name .lookupByString)
  lookupByNode := some (mixin .link name .lookupByNode)
  lookupByIndex := some (mixin .link name .lookupByIndex)
  lookupBySegment := some (mixin .link name .lookupBySegment)
  mapIterator := false
  listIterator := false
  length := -1
  isAbsent := false
  isNull := false
  asBool := .wrong (mixin .link name .asBool)
  asInt := .wrong (mixin .link name .asInt)
  asFloat := .wrong (mixin .link name .asFloat)
  asString := .wrong (mixin .link name .asString)
  asBytes := .wrong (mixin .link name .asBytes)
  asLink := .ok x

/-- The list types and their representation types: `Commit_Link_List` (2096-2175,
2360-2433), `String_List` (4413-4492, 4677-4750), `Tag_List` (6196-6275,
6460-6533). -/
def listFace (name : Bytes) (length : Int) : Face where
  kind := .list
  lookupByString := some (mixin .list name .lookupByString)
  lookupByNode := none
  lookupByIndex := none
  lookupBySegment := none
  mapIterator := false
  listIterator := true
  length := length
  isAbsent := false
  isNull := false
  asBool := .wrong (mixin .list name .asBool)
  asInt := .wrong (mixin .list name .asInt)
  asFloat := .wrong (mixin .list name .asFloat)
  asString := .wrong (mixin .list name .asString)
  asBytes := .wrong (mixin .list name .asBytes)
  asLink := .wrong (mixin .list name .asLink)

/-- The struct and map types and their representation types: `Commit` (292-440,
1060-1221), `PersonInfo` (3078-3173, 3616-3711), `Tag` (4985-5085, 5567-5667),
`Tree` (6788-6872, 7137-7206), `TreeEntry` (7509-7594, 7959-8044). -/
def mapFace (name : Bytes) (length : Int) : Face where
  kind := .map
  lookupByString := none
  lookupByNode := none
  lookupByIndex := some (mixin .map name .lookupByIndex)
  lookupBySegment := none
  mapIterator := true
  listIterator := false
  length := length
  isAbsent := false
  isNull := false
  asBool := .wrong (mixin .map name .asBool)
  asInt := .wrong (mixin .map name .asInt)
  asFloat := .wrong (mixin .map name .asFloat)
  asString := .wrong (mixin .map name .asString)
  asBytes := .wrong (mixin .map name .asBytes)
  asLink := .wrong (mixin .map name .asLink)

/-- The methods of a typed node; names and lengths as in the methods listed at
`blobFace`, `stringFace`, `linkFace`, `listFace` and `mapFace`. -/
def Own.face : Own → Face
  | .blob x => blobFace x
  | .string x => stringFace b!"ipldgit.String" x
  | .gpgSig x => stringFace b!"ipldgit.GpgSig" x
  | .link x => linkFace b!"ipldgit.Link" x
  | .treeLink x => linkFace b!"ipldgit.Tree_Link" x
  | .commitLink x => linkFace b!"ipldgit.Commit_Link" x
  | .linkList x => listFace b!"ipldgit.Commit_Link_List" (Own.linkList x).length
  | .stringList x => listFace b!"ipldgit.String_List" (Own.stringList x).length
  | .tagList x => listFace b!"ipldgit.Tag_List" (Own.tagList x).length
  | .person x => mapFace b!"ipldgit.PersonInfo" (Own.person x).length
  | .treeEntry x => mapFace b!"ipldgit.TreeEntry" (Own.treeEntry x).length
  | .tree x => mapFace b!"ipldgit.Tree" (Own.tree x).length
  | .tag x => mapFace b!"ipldgit.Tag" (Own.tag x).length
  | .commit x => mapFace b!"ipldgit.Commit" (Own.commit x).length

/-- The methods of the representation types. -/
def Own.reprFace : Own → Face
  | .blob x => blobFace x
  | .string x => stringFace b!"ipldgit.String" x
  | .gpgSig x => stringFace b!"ipldgit.GpgSig" x
  | .link x => linkFace b!"ipldgit.Link" x
  | .treeLink x => linkFace b!"ipldgit.Tree_Link" x
  | .commitLink x => linkFace b!"ipldgit.Commit_Link" x
  | .linkList x => listFace b!"ipldgit.Commit_Link_List.Repr" (Own.linkList x).reprLength
  | .stringList x => listFace b!"ipldgit.String_List.Repr" (Own.stringList x).reprLength
  | .tagList x => listFace b!"ipldgit.Tag_List.Repr" (Own.tagList x).reprLength
  | .person x => mapFace b!"ipldgit.PersonInfo.Repr" (Own.person x).reprLength
  | .treeEntry x => mapFace b!"ipldgit.TreeEntry.Repr" (Own.treeEntry x).reprLength
  | .tree x => mapFace b!"ipldgit.Tree.Repr" (Own.tree x).reprLength
  | .tag x => mapFace b!"ipldgit.Tag.Repr" (Own.tag x).reprLength
  | .commit x => mapFace b!"ipldgit.Commit.Repr" (Own.commit x).reprLength

/-- What a method refuses with. -/
def Face.refusal (f : Face) : Method → Option WrongKind
  | .lookupByString => f.lookupByString
  | .lookupByNode => f.lookupByNode
  | .lookupByIndex => f.lookupByIndex
  | .lookupBySegment => f.lookupBySegment
  | .asBool => f.asBool.refusal
  | .asInt => f.asInt.refusal
  | .asFloat => f.asFloat.refusal
  | .asString => f.asString.refusal
  | .asBytes => f.asBytes.refusal
  | .asLink => f.asLink.refusal

/-! Prototypes of the scalars. -/

/-- `_String__Prototype.FromString`, 4132-4135. -/
def stringFromString (v : Bytes) : Res Own := .ok (.string v)
/-- `_GpgSig__Prototype.FromString`, 2615-2618. -/
def gpgSigFromString (v : Bytes) : Res Own := .ok (.gpgSig v)
/-- `_Blob__Prototype.FromBytes`, 14-17. -/
def blobFromBytes (v : Bytes) : Res Own := .ok (.blob v)
/-- `_Link__Prototype.FromLink`, 2820-2823. -/
def linkFromLink (v : Link) : Res Own := .ok (.link v)
/-- `_Tree_Link__Prototype.FromLink`, 8389-8392. -/
def treeLinkFromLink (v : Link) : Res Own := .ok (.treeLink v)
/-- `_Commit_Link__Prototype.FromLink`, 1812-1815. -/
def commitLinkFromLink (v : Link) : Res Own := .ok (.commitLink v)

/-- `String()` of `String` (4125) and `GpgSig` (2608); the other types have no
such method. -/
def Own.string? : Own → Option Bytes
  | .string x | .gpgSig x => some x
  | _ => none

/-- `Bytes()` of `Blob` (11). -/
def Own.bytes? : Own → Option Bytes
  | .blob x => some x
  | _ => none

/-- `Link()` of `Link`, `Tree_Link` and `Commit_Link` (2817, 8386, 1809). -/
def Own.link? : Own → Option Link
  | .link x | .treeLink x | .commitLink x => some x
  | _ => none

/-- `LinkTargetNodePrototype()`: a `Commit_Link` names the prototype of the
representation of commits (2003-2005) and a `Tree_Link` that of trees (8580-8582);
given by the zero value of the type. `Link` has no such method. -/
def Own.linkTarget? : Own → Option Own
  | .commitLink _ => some (.commit .zero)
  | .treeLink _ => some (.tree ⟨[], []⟩)
  | _ => none

end Verif
