import Verif.Model.Kinds
import Verif.Model.Builders

/-!
# The methods of an assembler that only depend on its type

Every generated assembler in /repo/ipldsch_satisfaction.go has the methods
`BeginMap`, `BeginList`, seven `AssignX` methods, `AssignNode` and `Prototype`.
Those that do not fit the type hand the call to a `mixins.XAssembler` of
go-ipld-prime (go.mod:12), which answers `ErrWrongKind`. The generated code names
the mixin and the type anew in every method; this file keeps these apart too. Of
the fields of `ErrWrongKind` the set of appropriate kinds is left out, as in
`Verif.Model.Kinds`. What the implemented methods do is in `Verif.Model.Assemble`,
`Verif.Model.Calls` and `Verif.Model.TreeHeap`.
-/

namespace Verif

/-- The methods of an assembler that can answer `ErrWrongKind`. -/
inductive AsmMethod where
  | beginMap | beginList
  | assignNull | assignBool | assignInt | assignFloat | assignString | assignBytes | assignLink
  | assignNode
  deriving DecidableEq, Repr

/-- `ipld.ErrWrongKind` from an assembler (e.g. /repo/ipldsch_satisfaction.go:584).
-/
structure AsmWrong where
  typeName : Bytes
  method : AsmMethod
  actual : Kind
  deriving DecidableEq, Repr

/-- A node prototype: of a type (`_T__Prototype`) or of its representation
(`_T__ReprPrototype`). /repo/ipldsch_types.go:21-50. -/
structure ProtoRef where
  repr : Bool
  ty : Proto
  deriving DecidableEq, Repr

/-- `_T__ReprPrototype`. For the scalars it is an alias of `_T__Prototype`: 213,
2014, 2814, 3019, 4331, 8591. The others are 1226, 2438, 3716, 4755, 5672, 6538,
7211, 8049. -/
def reprProto : Proto → ProtoRef
  | .blob => ⟨false, .blob⟩
  | .string => ⟨false, .string⟩
  | .gpgSig => ⟨false, .gpgSig⟩
  | .link => ⟨false, .link⟩
  | .treeLink => ⟨false, .treeLink⟩
  | .commitLink => ⟨false, .commitLink⟩
  | p => ⟨true, p⟩

/-- The methods of one assembler. A method that is handed to a mixin is `some`
error; `none` is a method that the type implements. `assignNull` is the answer of
`AssignNull` while nothing has been assigned. `assignNode k` is the error that
`AssignNode` makes itself for a node of kind `k` that is neither null nor of the
assembler's own type; the scalars have none, they ask the node. -/
structure AsmFace where
  beginMap : Option AsmWrong
  beginList : Option AsmWrong
  assignNull : Option AsmWrong
  assignBool : Option AsmWrong
  assignInt : Option AsmWrong
  assignFloat : Option AsmWrong
  assignString : Option AsmWrong
  assignBytes : Option AsmWrong
  assignLink : Option AsmWrong
  assignNode : Kind → Option AsmWrong
  prototype : ProtoRef

/-- `mixins.MapAssembler`, `ListAssembler`, `StringAssembler`, `BytesAssembler`,
`LinkAssembler` of go-ipld-prime (go.mod:12): the error of one method. -/
def asmMixin (k : Kind) (name : Bytes) (m : AsmMethod) : AsmWrong := ⟨name, m, k⟩

/-- `_Blob__Assembler`, 138-201. -/
def blobAsm : AsmFace where
  beginMap := some (asmMixin .bytes b!"ipldgit.Blob" .beginMap)
  beginList := some (asmMixin .bytes b!"ipldgit.Blob" .beginList)
  assignNull := some (asmMixin .bytes b!"ipldgit.Blob" .assignNull)
  assignBool := some (asmMixin .bytes b!"ipldgit.Blob" .assignBool)
  assignInt := some (asmMixin .bytes b!"ipldgit.Blob" .assignInt)
  assignFloat := some (asmMixin .bytes b!"ipldgit.Blob" .assignFloat)
  assignString := some (asmMixin .bytes b!"ipldgit.Blob" .assignString)
  assignBytes := none
  assignLink := some (asmMixin .bytes b!"ipldgit.Blob" .assignLink)
  assignNode := fun _ => none
  prototype := ⟨false, .blob⟩

/-- The assemblers of strings, `_String__Assembler` (4256-4319) and
`_GpgSig__Assembler` (2739-2802), and the key assemblers of structs (923-1037,
1694-1807, 3524-3598, 4050-4123, 5466-5548, 6034-6115, 7885-7943, 8327-8384), whose
`AssignNode` also asks the node. -/
def stringAsm (name : Bytes) (prototype : ProtoRef) : AsmFace where
  beginMap := some (asmMixin .string name .beginMap)
  beginList := some (asmMixin .string name .beginList)
  assignNull := some (asmMixin .string name .assignNull)
  assignBool := some (asmMixin .string name .assignBool)
  assignInt := some (asmMixin .string name .assignInt)
  assignFloat := some (asmMixin .string name .assignFloat)
  assignString := none
  assignBytes := some (asmMixin .string name .assignBytes)
  assignLink := some (asmMixin .string name .assignLink)
  assignNode := fun _ => none
  prototype := prototype

/-- `_Link__Assembler` (2944-3007), `_Tree_Link__Assembler` (8513-8576),
`_Commit_Link__Assembler` (1936-1999). -/
def linkAsm (name : Bytes) (prototype : ProtoRef) : AsmFace where
  beginMap := some (asmMixin .link name .beginMap)
  beginList := some (asmMixin .link name .beginList)
  assignNull := some (asmMixin .link name .assignNull)
  assignBool := some (asmMixin .link name .assignBool)
  assignInt := some (asmMixin .link name .assignInt)
  assignFloat := some (asmMixin .link name .assignFloat)
  assignString := some (asmMixin .link name .assignString)
  assignBytes := some (asmMixin .link name .assignBytes)
  assignLink := none
  assignNode := fun _ => none
  prototype := prototype

/-- The assemblers of lists: `_Commit_Link_List__Assembler` (2217-2300) and its
representation twin (2475-2558), `_String_List__Assembler` (4534-4617, 4792-4875),
`_Tag_List__Assembler` (6317-6400, 6575-6658). `AssignNull` of the representation
assemblers gives another name, `nullName` (2500, 4817, 6600). -/
def listAsm (name nullName : Bytes) (prototype : ProtoRef) : AsmFace where
  beginMap := some (asmMixin .list name .beginMap)
  beginList := none
  assignNull := some (asmMixin .list nullName .assignNull)
  assignBool := some (asmMixin .list name .assignBool)
  assignInt := some (asmMixin .list name .assignInt)
  assignFloat := some (asmMixin .list name .assignFloat)
  assignString := some (asmMixin .list name .assignString)
  assignBytes := some (asmMixin .list name .assignBytes)
  assignLink := some (asmMixin .list name .assignLink)
  assignNode := fun k => if k ≠ .list then some ⟨name, .assignNode, k⟩ else none
  prototype := prototype

/-- The assemblers of structs and trees: `_Commit__Assembler` (515-603) and its
representation twin (1282-1370), `_PersonInfo__Assembler` (3233-3321, 3762-3850),
`_Tag__Assembler` (5148-5236, 5720-5808), `_Tree__Assembler` (6916-7001,
7250-7335), `_TreeEntry__Assembler` (7648-7736, 8091-8179). `AssignNull` of the
representation assemblers gives another name, `nullName` (1304, 3784, 5742, 7274,
8113). -/
def mapAsm (name nullName : Bytes) (prototype : ProtoRef) : AsmFace where
  beginMap := none
  beginList := some (asmMixin .map name .beginList)
  assignNull := some (asmMixin .map nullName .assignNull)
  assignBool := some (asmMixin .map name .assignBool)
  assignInt := some (asmMixin .map name .assignInt)
  assignFloat := some (asmMixin .map name .assignFloat)
  assignString := some (asmMixin .map name .assignString)
  assignBytes := some (asmMixin .map name .assignBytes)
  assignLink := some (asmMixin .map name .assignLink)
  assignNode := fun k => if k ≠ .map then some ⟨name, .assignNode, k⟩ else none
  prototype := prototype

/-- The assembler that `_T__Prototype.NewBuilder()` holds, e.g. 110-128, 447-467;
names and prototypes as in the methods listed at `blobAsm`, `stringAsm`, `linkAsm`,
`listAsm` and `mapAsm`. -/
def Proto.asm : Proto → AsmFace
  | .blob => blobAsm
  | .string => stringAsm b!"ipldgit.String" ⟨false, .string⟩
  | .gpgSig => stringAsm b!"ipldgit.GpgSig" ⟨false, .gpgSig⟩
  | .link => linkAsm b!"ipldgit.Link" ⟨false, .link⟩
  | .treeLink => linkAsm b!"ipldgit.Tree_Link" ⟨false, .treeLink⟩
  | .commitLink => linkAsm b!"ipldgit.Commit_Link" ⟨false, .commitLink⟩
  | .linkList => listAsm b!"ipldgit.Commit_Link_List" b!"ipldgit.Commit_Link_List" ⟨false, .linkList⟩
  | .stringList => listAsm b!"ipldgit.String_List" b!"ipldgit.String_List" ⟨false, .stringList⟩
  | .tagList => listAsm b!"ipldgit.Tag_List" b!"ipldgit.Tag_List" ⟨false, .tagList⟩
  | .person => mapAsm b!"ipldgit.PersonInfo" b!"ipldgit.PersonInfo" ⟨false, .person⟩
  | .treeEntry => mapAsm b!"ipldgit.TreeEntry" b!"ipldgit.TreeEntry" ⟨false, .treeEntry⟩
  | .tree => mapAsm b!"ipldgit.Tree" b!"ipldgit.Tree" ⟨false, .tree⟩
  | .tag => mapAsm b!"ipldgit.Tag" b!"ipldgit.Tag" ⟨false, .tag⟩
  | .commit => mapAsm b!"ipldgit.Commit" b!"ipldgit.Commit" ⟨false, .commit⟩

/-- The assembler that `_T__ReprPrototype.NewBuilder()` holds, e.g. 1228-1248. The
scalars' is the same (214, 2015, 2815, 3020, 4332, 8592). -/
def Proto.reprAsm : Proto → AsmFace
  | .blob => blobAsm
  | .string => stringAsm b!"ipldgit.String" ⟨false, .string⟩
  | .gpgSig => stringAsm b!"ipldgit.GpgSig" ⟨false, .gpgSig⟩
  | .link => linkAsm b!"ipldgit.Link" ⟨false, .link⟩
  | .treeLink => linkAsm b!"ipldgit.Tree_Link" ⟨false, .treeLink⟩
  | .commitLink => linkAsm b!"ipldgit.Commit_Link" ⟨false, .commitLink⟩
  | .linkList => listAsm b!"ipldgit.Commit_Link_List.Repr" b!"ipldgit.Commit_Link_List.Repr.Repr"
      ⟨true, .linkList⟩
  | .stringList => listAsm b!"ipldgit.String_List.Repr" b!"ipldgit.String_List.Repr.Repr"
      ⟨true, .stringList⟩
  | .tagList => listAsm b!"ipldgit.Tag_List.Repr" b!"ipldgit.Tag_List.Repr.Repr" ⟨true, .tagList⟩
  | .person => mapAsm b!"ipldgit.PersonInfo.Repr" b!"ipldgit.PersonInfo.Repr.Repr" ⟨true, .person⟩
  | .treeEntry => mapAsm b!"ipldgit.TreeEntry.Repr" b!"ipldgit.TreeEntry.Repr.Repr"
      ⟨true, .treeEntry⟩
  | .tree => mapAsm b!"ipldgit.Tree.Repr" b!"ipldgit.Tree.Repr.Repr" ⟨true, .tree⟩
  | .tag => mapAsm b!"ipldgit.Tag.Repr" b!"ipldgit.Tag.Repr.Repr" ⟨true, .tag⟩
  | .commit => mapAsm b!"ipldgit.Commit.Repr" b!"ipldgit.Commit.Repr.Repr" ⟨true, .commit⟩

/-- The assembler for the keys of a map: the struct types have their own,
`_T__KeyAssembler` and `_T__ReprKeyAssembler` (see `stringAsm`); trees use the
assembler of `String` (6907, 7241). `none` for types without keys. -/
def Proto.keyAsm (repr : Bool) : Proto → Option AsmFace
  | .person => some (stringAsm
      (if repr then b!"ipldgit.PersonInfo.Repr.KeyAssembler" else b!"ipldgit.PersonInfo.KeyAssembler")
      ⟨false, .string⟩)
  | .treeEntry => some (stringAsm
      (if repr then b!"ipldgit.TreeEntry.Repr.KeyAssembler" else b!"ipldgit.TreeEntry.KeyAssembler")
      ⟨false, .string⟩)
  | .tag => some (stringAsm
      (if repr then b!"ipldgit.Tag.Repr.KeyAssembler" else b!"ipldgit.Tag.KeyAssembler")
      ⟨false, .string⟩)
  | .commit => some (stringAsm
      (if repr then b!"ipldgit.Commit.Repr.KeyAssembler" else b!"ipldgit.Commit.KeyAssembler")
      ⟨false, .string⟩)
  | .tree => some (stringAsm b!"ipldgit.String" ⟨false, .string⟩)
  | _ => none

/-- What a method refuses with; `AssignNode` is asked about a node of kind `k`. -/
def AsmFace.refusal (f : AsmFace) (k : Kind) : AsmMethod → Option AsmWrong
  | .beginMap => f.beginMap
  | .beginList => f.beginList
  | .assignNull => f.assignNull
  | .assignBool => f.assignBool
  | .assignInt => f.assignInt
  | .assignFloat => f.assignFloat
  | .assignString => f.assignString
  | .assignBytes => f.assignBytes
  | .assignLink => f.assignLink
  | .assignNode => f.assignNode k

/-- `Prototype()` of a typed node: 104, 441, 1902, 2176, 2705, 2910, 3174, 4222,
4493, 5086, 6276, 6873, 7595, 8479. -/
def Own.prototype : Own → ProtoRef
  | .blob _ => ⟨false, .blob⟩
  | .string _ => ⟨false, .string⟩
  | .gpgSig _ => ⟨false, .gpgSig⟩
  | .link _ => ⟨false, .link⟩
  | .treeLink _ => ⟨false, .treeLink⟩
  | .commitLink _ => ⟨false, .commitLink⟩
  | .linkList _ => ⟨false, .linkList⟩
  | .stringList _ => ⟨false, .stringList⟩
  | .tagList _ => ⟨false, .tagList⟩
  | .person _ => ⟨false, .person⟩
  | .treeEntry _ => ⟨false, .treeEntry⟩
  | .tree _ => ⟨false, .tree⟩
  | .tag _ => ⟨false, .tag⟩
  | .commit _ => ⟨false, .commit⟩

/-- `Prototype()` of a node of a representation type: 1222, 2434, 3712, 4751, 5668,
6534, 7207, 8045; the scalars' is that of the typed node. -/
def Own.reprPrototype : Own → ProtoRef
  | .linkList _ => ⟨true, .linkList⟩
  | .stringList _ => ⟨true, .stringList⟩
  | .tagList _ => ⟨true, .tagList⟩
  | .person _ => ⟨true, .person⟩
  | .treeEntry _ => ⟨true, .treeEntry⟩
  | .tree _ => ⟨true, .tree⟩
  | .tag _ => ⟨true, .tag⟩
  | .commit _ => ⟨true, .commit⟩
  | v => v.prototype

/-- `Prototype()` of a node of the package. Foreign nodes are not covered. E.g.
/repo/ipldsch_satisfaction.go:441, 1222. -/
def Node.prototype : Node → Option ProtoRef
  | .own v => some v.prototype
  | .repr v => some v.reprPrototype
  | _ => none

/-- `KeyPrototype()` of a map assembler: 914, 1685, 3515, 4041, 5457, 6025, 7120,
7454, 7876, 8318. -/
def keyPrototype : ProtoRef → Option ProtoRef
  | ⟨_, .person⟩ | ⟨_, .treeEntry⟩ | ⟨_, .tag⟩ | ⟨_, .commit⟩ => some ⟨false, .string⟩
  | ⟨false, .tree⟩ => some ⟨false, .string⟩
  | ⟨true, .tree⟩ => some (reprProto .string)
  | _ => none

/-- `ValuePrototype` of a map or list assembler. Those of structs panic (917, 1688,
3518, 4044, 5460, 6028, 7879, 8321); the others are 2346, 2604, 4663, 4921, 6446,
6704, 7123, 7457, and ignore their argument. Outer `none`: no such method. -/
def valuePrototype : ProtoRef → Option (Res ProtoRef)
  | ⟨_, .person⟩ | ⟨_, .treeEntry⟩ | ⟨_, .tag⟩ | ⟨_, .commit⟩ => some .panic
  | ⟨false, .linkList⟩ => some (.ok ⟨false, .commitLink⟩)
  | ⟨true, .linkList⟩ => some (.ok (reprProto .commitLink))
  | ⟨false, .stringList⟩ => some (.ok ⟨false, .string⟩)
  | ⟨true, .stringList⟩ => some (.ok (reprProto .string))
  | ⟨false, .tagList⟩ => some (.ok ⟨false, .tag⟩)
  | ⟨true, .tagList⟩ => some (.ok (reprProto .tag))
  | ⟨false, .tree⟩ => some (.ok ⟨false, .treeEntry⟩)
  | ⟨true, .tree⟩ => some (.ok (reprProto .treeEntry))
  | _ => none

/-- `NewBuilder()`, `AssignNode(n)`, `Build()` on a prototype. The builders of the
representation take the same nodes and `Build` gives out the typed value
(1238-1243, 1333-1348). -/
def ProtoRef.copy (pol : TreeAsm → Nat) (r : ProtoRef) (n : Node) : Res Own :=
  r.ty.assignNode pol n

end Verif
