import Verif.Spec.Again
import Verif.Spec.TreeForeign

/-!
# Specification: several objects through one tree builder
-/

namespace Verif.Spec

open Calls Handles

/-- What `Decode` does to a tree builder in memory, /repo/unmarshal.go:11-38: the object
is read first, and then given to the builder (tree.go:43, commit.go:42, tag.go:72,
blob.go:43). `room`: how many more rows the array behind the table of a decoded tree
has room for. -/
inductive DecodeInto (repr : Bool) (grow : Nat → Nat) (s : Stream) (a : TreeSt) : TreeRes → Prop where
  | fails {e : Err} (h : parseObject s = .err e) : DecodeInto repr grow s a (.err e a)
  | tree {g : Tree} (room : Nat) (h : parseObject s = .ok (.tree g)) : DecodeInto repr grow s a (a.assignTree g room)
  | gives {o : Verif.Obj} {d : Nd} (h : parseObject s = .ok o) (hn : ∀ g, o ≠ .tree g) (hd : Offers (.own o.own) d) :
      DecodeInto repr grow s a (a.assignNode repr grow d)

/-- `Decode` with one stream after the other; none of the calls panics. -/
inductive DecodesInto (repr : Bool) (grow : Nat → Nat) : TreeSt → List Stream → TreeSt → Prop where
  | nil (a : TreeSt) : DecodesInto repr grow a [] a
  | ok {s : Stream} {r : List Stream} {a b c : TreeSt} (h : DecodeInto repr grow s a (.ok b))
      (hr : DecodesInto repr grow b r c) : DecodesInto repr grow a (s :: r) c
  | err {s : Stream} {r : List Stream} {a b c : TreeSt} {e : Err} (h : DecodeInto repr grow s a (.err e b))
      (hr : DecodesInto repr grow b r c) : DecodesInto repr grow a (s :: r) c

/-- The stream holds a tree, commit or tag. -/
def HoldsMap (s : Stream) : Prop := ∃ o, parseObject s = .ok o ∧ ∀ x, o ≠ .blob x

/-- The stream holds a commit or a tag, and this is its first field. -/
def HoldsWith (k : Bytes) (s : Stream) : Prop :=
  (∃ c, parseObject s = .ok (.commit c)) ∧ k = b!"tree" ∨ (∃ g, parseObject s = .ok (.tag g)) ∧ k = b!"object"

/-- A tree with a further row: a name, and an entry without mode and hash. -/
def withEmpty (t : Tree) (k : Bytes) : Tree := ⟨(k, ⟨[], .nil⟩) :: t.m, t.t ++ [(k, ⟨[], .nil⟩)]⟩

end Verif.Spec
