import Verif.Model.Node

/-!
# The IPLD schema of the struct types

From /repo/gen/gen.go: field names in order and which are optional.
-/

namespace Verif.Spec

open Verif

/-- Field names in schema order. -/
def fieldNames : Own → List Bytes
  | .person _ => [b!"date", b!"timezone", b!"email", b!"name"]
  | .treeEntry _ => [b!"mode", b!"hash"]
  | .tag _ => [b!"object", b!"type", b!"tag", b!"tagger", b!"message"]
  | .commit _ => [b!"tree", b!"parents", b!"message", b!"author", b!"committer",
      b!"encoding", b!"signature", b!"mergetag", b!"other"]
  | _ => []

/-- The struct types. -/
def IsStruct : Own → Prop
  | .person _ | .treeEntry _ | .tag _ | .commit _ => True
  | _ => False

/-- Whether a field of a struct value is there: only four fields of a commit are
optional. -/
def present : Own → Bytes → Bool
  | .commit c, k =>
    if k = b!"author" then c.author.isSome
    else if k = b!"committer" then c.committer.isSome
    else if k = b!"encoding" then c.encoding.isSome
    else if k = b!"signature" then c.signature.isSome
    else true
  | _, _ => true

/-- The value of a field that is there, as a typed node. -/
def fieldValue : Own → Bytes → Option Own
  | .person p, k =>
    if k = b!"date" then some (.string p.date)
    else if k = b!"timezone" then some (.string p.timezone)
    else if k = b!"email" then some (.string p.email)
    else if k = b!"name" then some (.string p.name)
    else none
  | .treeEntry e, k =>
    if k = b!"mode" then some (.string e.mode)
    else if k = b!"hash" then some (.link e.hash)
    else none
  | .tag t, k =>
    if k = b!"object" then some (.link t.object)
    else if k = b!"type" then some (.string t.typ)
    else if k = b!"tag" then some (.string t.tag)
    else if k = b!"tagger" then some (.person t.tagger)
    else if k = b!"message" then some (.string t.message)
    else none
  | .commit c, k =>
    if k = b!"tree" then some (.treeLink c.tree)
    else if k = b!"parents" then some (.linkList c.parents)
    else if k = b!"message" then some (.string c.message)
    else if k = b!"author" then c.author.map .person
    else if k = b!"committer" then c.committer.map .person
    else if k = b!"encoding" then c.encoding.map .string
    else if k = b!"signature" then c.signature.map .gpgSig
    else if k = b!"mergetag" then some (.tagList c.mergetag)
    else if k = b!"other" then some (.stringList c.other)
    else none
  | _, _ => none

end Verif.Spec
