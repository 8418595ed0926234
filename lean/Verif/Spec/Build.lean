import Verif.Model.Node

/-!
# What a node denotes under the schema

Which Go value a data-model node stands for, in terms of the node interface
(kind, iteration, scalar accessors) and of the schema. Independent of the
assemblers.
-/

namespace Verif.Spec

open Verif

/-- The node is a string with these bytes. -/
def StrNode (n : Node) (b : Bytes) : Prop := n.kind = .string ∧ n.asString = .ok b

/-- The node is this link. -/
def LinkNode (n : Node) (l : Link) : Prop := n.kind = .link ∧ n.asLink = .ok l

/-- Nodes and values correspond one to one, in order. -/
def Each {α : Type} (R : Node → α → Prop) : List Node → List α → Prop
  | [], [] => True
  | n :: ns, a :: as => R n a ∧ Each R ns as
  | _, _ => False

/-- The node is a list whose elements denote these values. -/
def ListNode {α : Type} (R : Node → α → Prop) (n : Node) (as : List α) : Prop :=
  ∃ ns, n.listIterator = some ns ∧ Each R ns as

/-- The entries use each key at most once, only keys of the schema, and all of
the required ones. -/
def KeysOk (required optional : List Bytes) (es : List (Bytes × Node)) : Prop :=
  (es.map Prod.fst).Nodup ∧
  (∀ k ∈ es.map Prod.fst, k ∈ required ∨ k ∈ optional) ∧
  (∀ k ∈ required, k ∈ es.map Prod.fst)

/-- The value under key `k`, if there is one, satisfies `P`. -/
def At (es : List (Bytes × Node)) (k : Bytes) (P : Node → Prop) : Prop :=
  ∀ v, (k, v) ∈ es → P v

/-- The node is a map with the four string fields of a person. -/
def PersonNode (n : Node) (p : PersonInfo) : Prop :=
  ∃ es, n.mapIterator = some es ∧
    KeysOk [b!"date", b!"timezone", b!"email", b!"name"] [] es ∧
    At es b!"date" (StrNode · p.date) ∧
    At es b!"timezone" (StrNode · p.timezone) ∧
    At es b!"email" (StrNode · p.email) ∧
    At es b!"name" (StrNode · p.name)

/-- The node is a map with the mode and hash of a tree entry. -/
def TreeEntryNode (n : Node) (e : TreeEntry) : Prop :=
  ∃ es, n.mapIterator = some es ∧
    KeysOk [b!"mode", b!"hash"] [] es ∧
    At es b!"mode" (StrNode · e.mode) ∧
    At es b!"hash" (LinkNode · e.hash)

/-- The node is a map with the five fields of a tag. -/
def TagNode (n : Node) (t : Tag) : Prop :=
  ∃ es, n.mapIterator = some es ∧
    KeysOk [b!"object", b!"type", b!"tag", b!"tagger", b!"message"] [] es ∧
    At es b!"object" (LinkNode · t.object) ∧
    At es b!"type" (StrNode · t.typ) ∧
    At es b!"tag" (StrNode · t.tag) ∧
    At es b!"tagger" (PersonNode · t.tagger) ∧
    At es b!"message" (StrNode · t.message)

/-- An optional field: its value is not listed or is `ipld.Absent` and the field
is missing, or its value denotes what the field holds. -/
def OptAt {α : Type} (es : List (Bytes × Node)) (k : Bytes) (R : Node → α → Prop)
    (o : Option α) : Prop :=
  (k ∉ es.map Prod.fst → o = none) ∧
  At es k fun v => (v = .absent ∧ o = none) ∨ ∃ a, R v a ∧ o = some a

/-- The node is a map with the fields of a commit. -/
def CommitNode (n : Node) (c : Commit) : Prop :=
  ∃ es, n.mapIterator = some es ∧
    KeysOk [b!"tree", b!"parents", b!"message", b!"mergetag", b!"other"]
      [b!"author", b!"committer", b!"encoding", b!"signature"] es ∧
    At es b!"tree" (LinkNode · c.tree) ∧
    At es b!"parents" (ListNode LinkNode · c.parents) ∧
    At es b!"message" (StrNode · c.message) ∧
    OptAt es b!"author" PersonNode c.author ∧
    OptAt es b!"committer" PersonNode c.committer ∧
    OptAt es b!"encoding" StrNode c.encoding ∧
    OptAt es b!"signature" StrNode c.signature ∧
    At es b!"mergetag" (ListNode TagNode · c.mergetag) ∧
    At es b!"other" (ListNode StrNode · c.other)

end Verif.Spec
