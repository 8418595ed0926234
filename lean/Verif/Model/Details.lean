import Verif.Model.Calls
import Verif.Model.TreeCalls

/-!
# What the errors of the assemblers say (`/repo/ipldsch_satisfaction.go`)

`Verif.Model.Calls` only tells the kinds of error apart. This file adds what an
error carries: the type name, the key, the fields that are missing.

Simplified: of `ipld.ErrWrongKind` only `TypeName` is followed. Its other fields are
filled in by the `mixins` package, which is a dependency.
-/

namespace Verif.Calls

open Verif

/-- What an error of an assembler carries: `TypeName` of `ipld.ErrWrongKind`,
`TypeName` and `Key` of `ipld.ErrInvalidKey`, `Key` of `ipld.ErrRepeatedMapKey`,
`Missing` of `ipld.ErrMissingRequiredField`. E.g.
/repo/ipldsch_satisfaction.go:529, 801, 716, 892-908. -/
inductive Detail where
  | wrongKind (type : Bytes)
  | invalidKey (type key : Bytes)
  | repeatedKey (key : Bytes)
  | missing (names : List Bytes)
  deriving DecidableEq, Repr

/-- The kind of error that carries it. -/
def Detail.err : Detail → Err
  | .wrongKind _ => .wrongKind
  | .invalidKey _ _ => .invalidKey
  | .repeatedKey _ => .repeatedKey
  | .missing _ => .missingField

/-- The literal after `TypeName:` in the assemblers of the typed view.
/repo/ipldsch_satisfaction.go:4275, 2758, 2963, 8532, 1955, 2251, 4568, 6351, 3264,
7679, 5179, 546. -/
def T.goName : T → Bytes
  | .string => b!"ipldgit.String"
  | .gpgSig => b!"ipldgit.GpgSig"
  | .link => b!"ipldgit.Link"
  | .treeLink => b!"ipldgit.Tree_Link"
  | .commitLink => b!"ipldgit.Commit_Link"
  | .linkList => b!"ipldgit.Commit_Link_List"
  | .stringList => b!"ipldgit.String_List"
  | .tagList => b!"ipldgit.Tag_List"
  | .person => b!"ipldgit.PersonInfo"
  | .treeEntry => b!"ipldgit.TreeEntry"
  | .tag => b!"ipldgit.Tag"
  | .commit => b!"ipldgit.Commit"

/-- `TypeName` in the assemblers of a view. Scalars have one assembler for both
views (e.g. `type _String__ReprAssembler = _String__Assembler`, 4319); the others
say `.Repr`, e.g. 1296. -/
def T.asmName (repr : Bool) (t : T) : Bytes :=
  match t.shape with
  | .text | .link => t.goName
  | .list _ | .struct _ => if repr then t.goName ++ b!".Repr" else t.goName

/-- `TypeName` in `AssignNull`: the representation assemblers say `.Repr.Repr`.
/repo/ipldsch_satisfaction.go:537, 1304, 2250, 2500, 3784, 4817, 5742, 6600, 8113,
4264. -/
def T.nullName (repr : Bool) (t : T) : Bytes :=
  match t.shape with
  | .text | .link => t.goName
  | .list _ | .struct _ => if repr then t.goName ++ b!".Repr.Repr" else t.goName

/-- `TypeName` in the key assemblers. /repo/ipldsch_satisfaction.go:924, 1690. -/
def T.keyName (repr : Bool) (t : T) : Bytes :=
  if repr then t.goName ++ b!".Repr.KeyAssembler" else t.goName ++ b!".KeyAssembler"

/-- The list that `Finish` puts together: required fields whose bit is not set.
/repo/ipldsch_satisfaction.go:893-907. -/
def missingFrom : Nat → List FieldT → Nat → List Bytes
  | _, [], _ => []
  | i, f :: r, s =>
    if f.required && (s &&& (1 <<< i)) = 0 then f.name :: missingFrom (i + 1) r s
    else missingFrom (i + 1) r s

/-- The errors in the `switch` over the key. The repeated key is the constant for
the field (`&fieldName__Commit_Tree`, or `_serial`), the unknown key is the one
given. /repo/ipldsch_satisfaction.go:714-801, 952-1020, 1482-1568. -/
def keyWhy (repr : Bool) (t : T) (fs : List FieldT) (k : Bytes) (s : Nat) : Option Detail :=
  match find fs k with
  | none => some (.invalidKey (t.asmName repr) k)
  | some i =>
    if s &&& (1 <<< i) ≠ 0 then (fs[i]?).map fun fd => .repeatedKey fd.name
    else none

/-- What the error of a call on the handle of the assembler itself carries, `none`
if the call returns no error. /repo/ipldsch_satisfaction.go:515-562, 694-913,
923-1027, 1283-1330, 2217-2345, 4256-4316. -/
def Frame.why (repr : Bool) (a : Frame) : Call → Option Detail
  | .beginMap =>
    match a.ty.shape with
    | .struct _ => none
    | _ => some (.wrongKind (a.ty.asmName repr))
  | .beginList _ =>
    match a.ty.shape with
    | .list _ => none
    | _ => some (.wrongKind (a.ty.asmName repr))
  | .assignNull => if a.m = .absent then some (.wrongKind (a.ty.nullName repr)) else none
  | .assignOther => some (.wrongKind (a.ty.asmName repr))
  | .assignString _ =>
    match a.ty.shape with
    | .text => none
    | _ => some (.wrongKind (a.ty.asmName repr))
  | .assignLink _ =>
    match a.ty.shape with
    | .link => none
    | _ => some (.wrongKind (a.ty.asmName repr))
  | .assignSelf _ _ => none
  | .assembleEntry k =>
    if a.begun then
      match a.ty.shape with
      | .struct fs =>
        match ready a with
        | none => none
        | some a' => keyWhy repr a.ty fs k a'.s
      | _ => none
    else none
  | .assembleKey => none
  | .keyAssign k =>
    if a.begun then
      match a.ty.shape with
      | .struct fs => if a.ph ≠ .midKey then none else keyWhy repr a.ty fs k a.s
      | _ => none
    else none
  | .keyAssignOther =>
    if a.begun then
      match a.ty.shape with
      | .struct _ => some (.wrongKind (a.ty.keyName repr))
      | _ => none
    else none
  | .assembleValue => none
  | .finish =>
    if a.begun then
      match a.ty.shape with
      | .struct fs =>
        match ready a with
        | none => none
        | some a' =>
          if a'.s &&& sufficient fs ≠ sufficient fs then some (.missing (missingFrom 0 fs a'.s))
          else none
      | _ => none
    else none

/-- What the error of a call on the handle `d` levels down carries. -/
def Frame.whyAt (repr : Bool) (a : Frame) : Nat → Call → Option Detail
  | 0, c => a.why repr c
  | d + 1, c =>
    match a.child with
    | none => none
    | some ch => ch.whyAt repr d c

/-- `TypeName` in the tree assemblers. /repo/ipldsch_satisfaction.go:6932, 7266. -/
def treeName (repr : Bool) : Bytes := if repr then b!"ipldgit.Tree.Repr" else b!"ipldgit.Tree"

/-- What the error of a call on a tree assembler or its key assembler carries. The
key assembler is the one for strings. /repo/ipldsch_satisfaction.go:6931-6963,
7030-7054, 7265-7298, 7364-7388, 4256-4316. -/
def TreeFrame.why (repr : Bool) (a : TreeFrame) : Call → Option Detail
  | .beginMap | .assignSelf _ _ | .assembleKey | .keyAssign _ | .assembleValue | .finish => none
  | .beginList _ | .assignOther | .assignString _ | .assignLink _ => some (.wrongKind (treeName repr))
  | .assignNull =>
    if a.s.m = .absent then
      some (.wrongKind (if repr then b!"ipldgit.Tree.Repr.Repr" else b!"ipldgit.Tree"))
    else none
  | .assembleEntry k =>
    if a.s.map.isSome then
      match a.s.ready with
      | none => none
      | some s => (TreeAsm.get s.map k).map fun _ => .repeatedKey k
    else none
  | .keyAssignOther => if a.s.map.isSome then some (.wrongKind b!"ipldgit.String") else none

/-- What the error of a call on the handle `d` levels down carries. -/
def TreeFrame.whyAt (repr : Bool) (a : TreeFrame) : Nat → Call → Option Detail
  | 0, c => a.why repr c
  | d + 1, c =>
    match a.child with
    | none => none
    | some ch => ch.whyAt repr d c

end Verif.Calls
