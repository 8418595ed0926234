import Verif.Model.EncodeNode
import Verif.Model.Builders

/-!
# Decoding into nodes of `basicnode`

The builders of go-ipld-prime's `basicnode`, as the target of `Decode`. A builder of
`Prototype.Any` keeps a node it is given; the builder of a map or list copies the
entries and keeps the values. Whether a map builder copies absent values or leaves
them out is a parameter (`AssignNode` copies them, `datamodel.Copy` leaves them out).
-/

namespace Verif

/-- `basicnode.Prototype`. -/
inductive Basic where
  | any | map (skip : Bool) | list | string | bytes | link | int | bool | float
  deriving DecidableEq, Repr

/-- `IsAbsent()`: only `ipld.Absent`. /repo/ipldsch_satisfaction.go:80-82, 417-419. -/
def Node.isAbsent : Node → Bool
  | .absent => true
  | _ => false

/-- `plainMap__Assembler.AssignNode`: entry by entry, keys must not repeat. -/
def copyEntries (skip : Bool) : List (Bytes × Node) → List (Bytes × Node) → Res (List (Bytes × Node))
  | acc, [] => .ok acc
  | acc, (k, v) :: r =>
    if skip && v.isAbsent then copyEntries skip acc r
    else match entryGet acc k with
      | some _ => .err .repeatedKey
      | none => copyEntries skip (acc ++ [(k, v)]) r

/-- `AssignNode` on a new builder, then `Build`. -/
def Basic.assignNode : Basic → Node → Res Node
  | .any, n => .ok n
  | .map skip, n =>
    match n with
    | .map es => .ok (.map es)
    | n =>
      if n.kind ≠ .map then .err .wrongKind
      else match n.mapIterator with
        | some es => do .ok (.map (← copyEntries skip [] es))
        | none => .panic
  | .list, n =>
    if n.kind ≠ .list then .err .wrongKind
    else match n.listIterator with
      | some ns => .ok (.list ns)
      | none => .panic
  | .string, n => do .ok (.str (← n.asString))
  | .bytes, n => do .ok (.bytes (← n.asBytes))
  | .link, n => do .ok (.link (← n.asLink))
  | .int, n => match n with | .int i => .ok (.int i) | _ => .err .wrongKind
  | .bool, n => match n with | .bool b => .ok (.bool b) | _ => .err .wrongKind
  | .float, n => match n with | .float x => .ok (.float x) | _ => .err .wrongKind

/-- `AssignBytes` on a new builder, then `Build`. -/
def Basic.assignBytes : Basic → Bytes → Res Node
  | .any, b | .bytes, b => .ok (.bytes b)
  | _, _ => .err .wrongKind

/-- A new builder as the target of `Decode`. /repo/unmarshal.go:12-36. -/
def Basic.sink (B : Basic) : Sink Node := ⟨fun o => B.assignNode (.own o.own), B.assignBytes⟩

end Verif
