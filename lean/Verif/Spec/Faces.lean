import Verif.Spec.Kinds
import Verif.Model.Faces

/-!
# Specification: what an assembler of each type takes
-/

namespace Verif.Spec

open Verif

/-- The type that a prototype makes values of. -/
def madeBy : Proto → Ty
  | .blob => .blob
  | .string => .string
  | .gpgSig => .gpgSig
  | .link => .link
  | .treeLink => .treeLink
  | .commitLink => .commitLink
  | .linkList => .linkList
  | .stringList => .stringList
  | .tagList => .tagList
  | .person => .person
  | .treeEntry => .treeEntry
  | .tree => .tree
  | .tag => .tag
  | .commit => .commit

/-- The kind of the values of a type, from the schema. -/
def Ty.kind : Ty → Kind
  | .blob => .bytes
  | .string | .gpgSig => .string
  | .link | .treeLink | .commitLink => .link
  | .linkList | .stringList | .tagList => .list
  | .person | .treeEntry | .tree | .tag | .commit => .map

/-- The kind of value that a method of an assembler starts or stores; `AssignNode`
has none of its own. -/
def stores : AsmMethod → Option Kind
  | .beginMap => some .map
  | .beginList => some .list
  | .assignNull => some .null
  | .assignBool => some .bool
  | .assignInt => some .int
  | .assignFloat => some .float
  | .assignString => some .string
  | .assignBytes => some .bytes
  | .assignLink => some .link
  | .assignNode => none

/-- The name an assembler's errors carry. It is the name of the type in the view,
as for nodes, but `AssignNull` of a representation that is a type of its own doubles
the mark `.Repr`. -/
def asmName (repr : Bool) (t : Ty) (m : AsmMethod) : Bytes :=
  nameOf repr t ++ (if m = .assignNull ∧ repr = true ∧ t.isScalar = false then b!".Repr" else [])

/-- The type of the elements of a list or of the values of a map whose values are
all alike. -/
def Ty.elem : Ty → Option Ty
  | .linkList => some .commitLink
  | .stringList => some .string
  | .tagList => some .tag
  | .tree => some .treeEntry
  | _ => none

/-- The types whose keys are fixed. -/
def Ty.isStruct : Ty → Bool
  | .person | .treeEntry | .tag | .commit => true
  | _ => false

/-- Whether a prototype is that of a type in a view: the scalars have one view. -/
def IsProto (repr : Bool) (t : Ty) (r : ProtoRef) : Prop :=
  madeBy r.ty = t ∧ r.repr = (repr && !t.isScalar)

end Verif.Spec
