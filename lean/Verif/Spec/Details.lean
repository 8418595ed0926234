import Verif.Spec.Calls
import Verif.Model.Details

/-!
# What an error should say

Told from the calls that succeeded so far, and from the schema.
-/

namespace Verif.Spec

open Calls

/-- The name of a type in the schema. /repo/gen/gen.go. -/
def schemaName : T → Bytes
  | .string => b!"String"
  | .gpgSig => b!"GpgSig"
  | .link => b!"Link"
  | .treeLink => b!"Tree_Link"
  | .commitLink => b!"Commit_Link"
  | .linkList => b!"Commit_Link_List"
  | .stringList => b!"String_List"
  | .tagList => b!"Tag_List"
  | .person => b!"PersonInfo"
  | .treeEntry => b!"TreeEntry"
  | .tag => b!"Tag"
  | .commit => b!"Commit"

/-- The key that a call names. -/
def keyOf : Call → Option Bytes
  | .assembleEntry k | .keyAssign k => some k
  | _ => none

/-- The keys named so far on the handle that is current at depth `d`: those of the
calls at this depth since the last call further up, which made the handle. -/
def keysAt (d : Nat) (cs : List (Nat × Call)) : List Bytes :=
  cs.foldl (fun ks p =>
    if p.1 < d then []
    else if p.1 = d then
      match keyOf p.2 with
      | some k => ks ++ [k]
      | none => ks
    else ks) []

/-- The fields of a type; none unless it is a struct. -/
def fieldsOf (t : T) : List FieldT :=
  match t.shape with
  | .struct fs => fs
  | _ => []

/-- The type of the handle one level down from a handle of type `t`: that of the
elements, or of the field named last. -/
def below (t : T) (named : Option Bytes) : Option T :=
  match t.shape with
  | .list e => some e
  | .struct fs =>
    match named with
    | some k => (fs.find? fun f => f.name = k).map (·.ty)
    | none => none
  | _ => none

/-- The type of the handle that is current at depth `d`. -/
def typeAt (t : T) (cs : List (Nat × Call)) : Nat → Option T
  | 0 => some t
  | d + 1 => (typeAt t cs d).bind fun u => below u (keysAt d cs).getLast?

/-- The required fields of a type, in the order of the schema, without these. -/
def stillMissing (t : T) (named : List Bytes) : List Bytes :=
  ((fieldsOf t).filter fun f => f.required && !named.contains f.name).map (·.name)

/-- Text or link. -/
def scalar (t : T) : Bool :=
  match t.shape with
  | .text | .link => true
  | _ => false

/-- The name that an error about a handle of this type should carry. -/
def handleName (repr : Bool) (t : T) : Bytes :=
  b!"ipldgit." ++ schemaName t ++ if repr && !scalar t then b!".Repr" else []

/-- Calls that a handle of this type supports, as far as the kind of data goes. -/
def suits (t : T) : Call → Bool
  | .beginMap => match t.shape with | .struct _ => true | _ => false
  | .beginList _ => match t.shape with | .list _ => true | _ => false
  | .assignString _ => match t.shape with | .text => true | _ => false
  | .assignLink _ => match t.shape with | .link => true | _ => false
  | .assignNull | .assignOther | .keyAssignOther => false
  | _ => true

/-- `Wrong repr t named c x`: there is something wrong with the call `c` on a handle
of type `t` on which the keys `named` have been named, and `x` says what it is. -/
def Wrong (repr : Bool) (t : T) (named : List Bytes) (c : Call) : Detail → Prop
  | .wrongKind n => suits t c = false ∧
    n = handleName repr t ++
      match c with
      | .assignNull => if repr && !scalar t then b!".Repr" else []
      | .keyAssignOther => b!".KeyAssembler"
      | _ => []
  | .invalidKey n k => keyOf c = some k ∧ k ∉ (fieldsOf t).map (·.name) ∧ n = handleName repr t
  | .repeatedKey k => keyOf c = some k ∧ k ∈ (fieldsOf t).map (·.name) ∧ k ∈ named
  | .missing ks => c = .finish ∧ ks = stillMissing t named ∧ ks ≠ []

/-- The same for a tree, of which `named` are the names given so far. -/
def WrongTree (repr : Bool) (named : List Bytes) (c : Call) : Detail → Prop
  | .wrongKind n =>
    match c with
    | .beginList _ | .assignOther | .assignString _ | .assignLink _ =>
      n = b!"ipldgit.Tree" ++ if repr then b!".Repr" else []
    | .assignNull => n = b!"ipldgit.Tree" ++ if repr then b!".Repr.Repr" else []
    | .keyAssignOther => n = b!"ipldgit.String"
    | _ => False
  | .repeatedKey k => c = .assembleEntry k ∧ k ∈ named
  | _ => False

/-- The type of the handle `d + 1` levels down from a tree. -/
def typeInTree (cs : List (Nat × Call)) : Nat → Option T
  | 0 => some .treeEntry
  | d + 1 => (typeInTree cs d).bind fun u => below u (keysAt (d + 1) cs).getLast?

end Verif.Spec
