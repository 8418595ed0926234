import Verif.Model.Kinds

/-!
# Specification: what a node of each type is
-/

namespace Verif.Spec

open Verif

/-- The types of the package's schema. -/
inductive Ty where
  | blob | string | gpgSig | link | treeLink | commitLink
  | linkList | stringList | tagList | person | treeEntry | tree | tag | commit
  deriving DecidableEq, Repr

/-- The type of a value. -/
def tyOf : Own → Ty
  | .blob _ => .blob
  | .string _ => .string
  | .gpgSig _ => .gpgSig
  | .link _ => .link
  | .treeLink _ => .treeLink
  | .commitLink _ => .commitLink
  | .linkList _ => .linkList
  | .stringList _ => .stringList
  | .tagList _ => .tagList
  | .person _ => .person
  | .treeEntry _ => .treeEntry
  | .tree _ => .tree
  | .tag _ => .tag
  | .commit _ => .commit

/-- The name a type has in the schema. -/
def Ty.name : Ty → Bytes
  | .blob => b!"Blob"
  | .string => b!"String"
  | .gpgSig => b!"GpgSig"
  | .link => b!"Link"
  | .treeLink => b!"Tree_Link"
  | .commitLink => b!"Commit_Link"
  | .linkList => b!"Commit_Link_List"
  | .stringList => b!"String_List"
  | .tagList => b!"Tag_List"
  | .person => b!"PersonInfo"
  | .treeEntry => b!"TreeEntry"
  | .tree => b!"Tree"
  | .tag => b!"Tag"
  | .commit => b!"Commit"

/-- The types that hold one value. -/
def Ty.isScalar : Ty → Bool
  | .blob | .string | .gpgSig | .link | .treeLink | .commitLink => true
  | _ => false

/-- The name a node's errors should carry: of the type, with the mark `.Repr`
where the representation is a type of its own. -/
def nameOf (repr : Bool) (t : Ty) : Bytes :=
  b!"ipldgit." ++ t.name ++ (if repr && !t.isScalar then b!".Repr" else [])

/-- The one value of a scalar. -/
inductive Value where
  | str (b : Bytes)
  | bytes (b : Bytes)
  | link (l : Link)

/-- The value of a scalar; lists and maps have none. -/
def valueOf : Own → Option Value
  | .string b | .gpgSig b => some (.str b)
  | .blob b => some (.bytes b)
  | .link l | .treeLink l | .commitLink l => some (.link l)
  | _ => none

/-- The kinds of node on which a method makes sense in the data model. -/
def sensible : Method → List Kind
  | .lookupByString => [.map]
  | .lookupByNode => [.map, .list]
  | .lookupByIndex => [.list]
  | .lookupBySegment => [.map, .list]
  | .asBool => [.bool]
  | .asInt => [.int]
  | .asFloat => [.float]
  | .asString => [.string]
  | .asBytes => [.bytes]
  | .asLink => [.link]

end Verif.Spec
