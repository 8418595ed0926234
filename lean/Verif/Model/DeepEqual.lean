import Verif.Model.Node

/-!
# `ipld.DeepEqual`

go-ipld-prime's comparison of nodes, as far as it uses the nodes of the package: by
kind; scalars by their values, links with `==`; lists and maps by `Length` and then
entry by entry in the order of their iterators. It panics where a node returns an
error, or a nil iterator.
-/

namespace Verif

/-- `Length()`. Foreign lists and maps count their entries.
/repo/ipldsch_satisfaction.go:76-78, 413-415, 1182-1197, 2135-2137, 6846-6848. -/
def Node.len : Node → Int
  | .list ns => ns.length
  | .map es => es.length
  | .own v => v.length
  | .repr v => v.reprLength
  | _ => -1

/-- Values of the kinds that the package's nodes do not have. -/
def Node.sameOther : Node → Node → Bool
  | .bool a, .bool b => a == b
  | .int a, .int b => a == b
  | .float a, .float b => a == b
  | _, _ => false

/-- Entry by entry, until one of the two iterators is done. -/
def eqEntries (eq : Node → Node → Res Bool) : List (Bytes × Node) → List (Bytes × Node) → Res Bool
  | (k, x) :: r, (l, y) :: s =>
    if k = l then do
      if ← eq x y then eqEntries eq r s else .ok false
    else .ok false
  | _, _ => .ok true

/-- Element by element, until one of the two iterators is done. -/
def eqElems (eq : Node → Node → Res Bool) : List Node → List Node → Res Bool
  | x :: r, y :: s => do
    if ← eq x y then eqElems eq r s else .ok false
  | _, _ => .ok true

/-- An error of a node makes `DeepEqual` panic. -/
def orPanic {α : Type} : Res α → Res α
  | .err _ => .panic
  | r => r

/-- `DeepEqual(x, y)`. The fuel bounds the depth. -/
def deepEqual : Nat → Node → Node → Res Bool
  | 0, _, _ => .err .fuel
  | f + 1, x, y =>
    if x.kind ≠ y.kind then .ok false
    else
      match x.kind with
      | .null => .ok (x.isNull == y.isNull)
      | .bool | .int | .float => .ok (x.sameOther y)
      | .string => do
        let a ← orPanic x.asString
        let b ← orPanic y.asString
        .ok (a == b)
      | .bytes => do
        let a ← orPanic x.asBytes
        let b ← orPanic y.asBytes
        .ok (a == b)
      | .link => do
        let a ← orPanic x.asLink
        let b ← orPanic y.asLink
        .ok (a == b)
      | .map =>
        if x.len ≠ y.len then .ok false
        else
          match x.mapIterator, y.mapIterator with
          | some a, some b => eqEntries (deepEqual f) a b
          | _, _ => .panic
      | .list =>
        if x.len ≠ y.len then .ok false
        else
          match x.listIterator, y.listIterator with
          | some a, some b => eqElems (deepEqual f) a b
          | _, _ => .panic

end Verif
