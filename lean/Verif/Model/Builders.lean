import Verif.Model.Decode
import Verif.Model.TreeHeap

/-!
# The package's own builders as targets of `Decode`

`Decode` (/repo/unmarshal.go:12-36) takes any `ipld.NodeAssembler`. Here are the
builders of all of the package's prototypes (/repo/ipldsch_types.go:7-58), fresh
from `NewBuilder()`, with what they do when given a finished object or bytes. The
builders of the representation prototypes (`Type.Commit__Repr` and so on) take
the same nodes.
-/

namespace Verif

/-- The prototypes `Type.Blob`, `Type.Commit` and so on.
/repo/ipldsch_types.go:21-50. -/
inductive Proto where
  | blob | string | gpgSig | link | treeLink | commitLink | linkList | stringList | tagList
  | person | treeEntry | tree | tag | commit
  deriving DecidableEq, Repr

/-- The type of a node of the package. `Prototype()`, e.g.
/repo/ipldsch_satisfaction.go:104, 441, 2176. -/
def Own.proto : Own → Proto
  | .blob _ => .blob
  | .string _ => .string
  | .gpgSig _ => .gpgSig
  | .link _ => .link
  | .treeLink _ => .treeLink
  | .commitLink _ => .commitLink
  | .linkList _ => .linkList
  | .stringList _ => .stringList
  | .tagList _ => .tagList
  | .person _ => .person
  | .treeEntry _ => .treeEntry
  | .tree _ => .tree
  | .tag _ => .tag
  | .commit _ => .commit

/-- A finished object as a typed node. /repo/unmarshal.go:39-75. -/
def Obj.own : Obj → Own
  | .blob b => .blob b
  | .tree t => .tree t
  | .commit c => .commit c
  | .tag t => .tag t

/-- `_Blob__Assembler.AssignNode`, /repo/ipldsch_satisfaction.go:180-198. -/
def assignBlob (n : Node) : Res Bytes :=
  if n.isNull then .err .wrongKind
  else match n with
    | .own (.blob b) => .ok b
    | n => n.asBytes

/-- The tree that a tree assembler has put together, read through its pointers.
`Build`, /repo/ipldsch_satisfaction.go:6889-6894. -/
def TreeAsm.built (s : TreeAsm) : Tree :=
  ⟨(s.map.getD []).filterMap (fun b => (s.deref b.2).map fun r => (b.1, r.2)), s.table⟩

/-- `_Tree__Assembler.AssignNode`, 6964-6999, on a fresh builder, then `Build`. -/
def assignTree (pol : TreeAsm → Nat) (n : Node) : Res Tree :=
  match n with
  | .own (.tree t) => .ok t
  | n =>
    match TreeAsm.fresh.assignNode pol n with
    | .ok s => .ok s.built
    | .err e _ => .err e
    | .panic => .panic

/-- `AssignNode` and `Build` on a fresh builder of a prototype. E.g.
/repo/ipldsch_satisfaction.go:112-130, 449-467. -/
def Proto.assignNode (pol : TreeAsm → Nat) : Proto → Node → Res Own
  | .blob, n => do .ok (.blob (← assignBlob n))
  | .string, n => do .ok (.string (← assignString n))
  | .gpgSig, n => do .ok (.gpgSig (← assignGpgSig n))
  | .link, n => do .ok (.link (← assignLink n))
  | .treeLink, n => do .ok (.treeLink (← assignTreeLink n))
  | .commitLink, n => do .ok (.commitLink (← assignCommitLink n))
  | .linkList, n => do .ok (.linkList (← assignLinkList [] n))
  | .stringList, n => do .ok (.stringList (← assignStringList [] n))
  | .tagList, n => do .ok (.tagList (← assignTagList [] n))
  | .person, n => do .ok (.person (← buildPerson n))
  | .treeEntry, n => do .ok (.treeEntry (← buildTreeEntry n))
  | .tree, n => do .ok (.tree (← assignTree pol n))
  | .tag, n => do .ok (.tag (← buildTag n))
  | .commit, n => do .ok (.commit (← buildCommit n))

/-- `AssignBytes` and `Build` on a fresh builder: only blobs take bytes (168-176);
the others return `ErrWrongKind` (e.g. 557, 1324, 2262, 4292). -/
def Proto.assignBytes : Proto → Bytes → Res Own
  | .blob, b => .ok (.blob b)
  | _, _ => .err .wrongKind

/-- A fresh builder as the target of `Decode`. /repo/unmarshal.go:12-36. -/
def Proto.sink (pol : TreeAsm → Nat) (P : Proto) : Sink Own :=
  ⟨fun o => P.assignNode pol (.own o.own), P.assignBytes⟩

end Verif
