import Verif.Spec.Shown
import Verif.Model.Decode

/-!
# Specification: several objects through one builder

A client calls `Decode` again and again with one builder, without `Reset`.
-/

namespace Verif.Spec

open Calls Handles

/-- What `Decode` does to a builder in memory, /repo/unmarshal.go:11-38: the object is
read first, and then given to the builder by `AssignNode` (tree.go:43, commit.go:42,
tag.go:72) or `AssignBytes` (blob.go:43), which a builder of another type refuses as it
refuses any node of another kind. -/
inductive DecodeOn (repr : Bool) (grow : Nat → Nat) (s : Stream) (a : St) : Handles.Out → Prop where
  | fails {e : Err} (h : parseObject s = .err e) : DecodeOn repr grow s a (.err e a)
  | gives {o : Verif.Obj} {d : Nd} (h : parseObject s = .ok o) (hd : Offers (.own o.own) d) :
      DecodeOn repr grow s a (assignNd repr grow d a)

/-- `Decode` with one stream after the other; none of the calls panics. -/
inductive Decodes (repr : Bool) (grow : Nat → Nat) : St → List Stream → St → Prop where
  | nil (a : St) : Decodes repr grow a [] a
  | ok {s : Stream} {r : List Stream} {a b c : St} (h : DecodeOn repr grow s a (.ok b))
      (hr : Decodes repr grow b r c) : Decodes repr grow a (s :: r) c
  | err {s : Stream} {r : List Stream} {a b c : St} {e : Err} (h : DecodeOn repr grow s a (.err e b))
      (hr : Decodes repr grow b r c) : Decodes repr grow a (s :: r) c

/-- The names of the fields of commits and tags, /repo/ipldsch_satisfaction.go:279-287, 1048-1056,
4976-4980, 5559-5563. -/
def _root_.Verif.Calls.T.fieldNames : T → List Bytes
  | .commit => [b!"tree", b!"parents", b!"message", b!"author", b!"committer", b!"encoding", b!"signature",
      b!"mergetag", b!"other"]
  | .tag => [b!"object", b!"type", b!"tag", b!"tagger", b!"message"]
  | _ => []

/-- The stream holds an object of the type of the builder. -/
def HoldsOwn (t : T) (s : Stream) : Prop := ∃ o, parseObject s = .ok o ∧ o.own.proto = protoOf t

/-- The stream holds a commit or a tag, and not what the builder is for. -/
def HoldsRival (t : T) (s : Stream) : Prop :=
  ∃ o, parseObject s = .ok o ∧ o.own.proto ≠ protoOf t ∧ ((∃ c, o = .commit c) ∨ ∃ g, o = .tag g)

/-- The stream holds a tree. -/
def HoldsTree (s : Stream) : Prop := ∃ g, parseObject s = .ok (.tree g)

/-- The stream holds a tree that begins with an entry named after a field of the type of
the builder. -/
def HoldsNamed (t : T) (s : Stream) : Prop :=
  ∃ g k e l, parseObject s = .ok (.tree g) ∧ g.t = (k, e) :: l ∧ k ∈ t.fieldNames

end Verif.Spec
