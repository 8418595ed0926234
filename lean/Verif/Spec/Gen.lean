import Verif.Spec.Kinds

/-!
# Specification: the schema

The type definitions that the code was generated from, /repo/gen/gen.go:21-66, as
data, and what it means for plain data to be of one of these types.
-/

namespace Verif.Spec

open Verif

/-- Plain data. `absent` only occurs as the value of a field that is not there. -/
inductive Data where
  | str (b : Bytes)
  | bytes (b : Bytes)
  | link (l : Link)
  | list (ds : List Data)
  | map (es : List (Bytes × Data))
  | absent

/-- A field of a struct (`SpawnStructField`); none is nullable. -/
structure Field where
  name : Bytes
  type : Ty
  optional : Bool

/-- A type definition: `SpawnString`, `SpawnBytes`, `SpawnLink` and
`SpawnLinkReference`, `SpawnList`, `SpawnMap` with string keys, and
`SpawnStruct` represented as a map without renamed fields. -/
inductive TypeDef where
  | string
  | bytes
  | link (target : Option Ty)
  | list (elem : Ty)
  | map (value : Ty)
  | struct (fields : List Field)

/-- /repo/gen/gen.go:21-66. -/
def schema : Ty → TypeDef
  | .string => .string
  | .link => .link none
  | .stringList => .list .string
  | .person => .struct [
      ⟨b!"date", .string, false⟩,
      ⟨b!"timezone", .string, false⟩,
      ⟨b!"email", .string, false⟩,
      ⟨b!"name", .string, false⟩]
  | .gpgSig => .string
  | .tag => .struct [
      ⟨b!"object", .link, false⟩,
      ⟨b!"type", .string, false⟩,
      ⟨b!"tag", .string, false⟩,
      ⟨b!"tagger", .person, false⟩,
      ⟨b!"message", .string, false⟩]
  | .tagList => .list .tag
  | .commit => .struct [
      ⟨b!"tree", .treeLink, false⟩,
      ⟨b!"parents", .linkList, false⟩,
      ⟨b!"message", .string, false⟩,
      ⟨b!"author", .person, true⟩,
      ⟨b!"committer", .person, true⟩,
      ⟨b!"encoding", .string, true⟩,
      ⟨b!"signature", .gpgSig, true⟩,
      ⟨b!"mergetag", .tagList, false⟩,
      ⟨b!"other", .stringList, false⟩]
  | .commitLink => .link (some .commit)
  | .linkList => .list .commitLink
  | .blob => .bytes
  | .tree => .map .treeEntry
  | .treeEntry => .struct [
      ⟨b!"mode", .string, false⟩,
      ⟨b!"hash", .link, false⟩]
  | .treeLink => .link (some .tree)

mutual
/-- Data of a type: `Conforms repr t d`. With `repr` it is the data of the
representation, where fields that are not there are left out; without, they are
listed as absent. -/
inductive Conforms (repr : Bool) : Ty → Data → Prop
  | str {t b} : schema t = .string → Conforms repr t (.str b)
  | bytes {t b} : schema t = .bytes → Conforms repr t (.bytes b)
  | link {t l g} : schema t = .link g → Conforms repr t (.link l)
  | list {t e ds} : schema t = .list e → (∀ d ∈ ds, Conforms repr e d) →
      Conforms repr t (.list ds)
  | map {t v es} : schema t = .map v → (es.map Prod.fst).Nodup →
      (∀ p ∈ es, Conforms repr v p.2) → Conforms repr t (.map es)
  | struct {t fs es} : schema t = .struct fs → Fields repr fs es →
      Conforms repr t (.map es)
/-- The entries of a struct, in the order of its fields. -/
inductive Fields (repr : Bool) : List Field → List (Bytes × Data) → Prop
  | nil : Fields repr [] []
  | there {f fs d es} : Conforms repr f.type d → Fields repr fs es →
      Fields repr (f :: fs) ((f.name, d) :: es)
  | out {f fs es} : repr = true → f.optional = true → Fields repr fs es →
      Fields repr (f :: fs) es
  | absent {f fs es} : repr = false → f.optional = true → Fields repr fs es →
      Fields repr (f :: fs) ((f.name, .absent) :: es)
end

mutual
/-- The data that a client reads from a node, going down through iterators and
`AsX` methods. -/
inductive Reads : Node → Data → Prop
  | absent : Reads .absent .absent
  | str {n b} : n.kind = .string → n.asString = .ok b → Reads n (.str b)
  | bytes {n b} : n.kind = .bytes → n.asBytes = .ok b → Reads n (.bytes b)
  | link {n l} : n.kind = .link → n.asLink = .ok l → Reads n (.link l)
  | list {n ns ds} : n.kind = .list → n.listIterator = some ns → ReadsList ns ds →
      Reads n (.list ds)
  | map {n ns es} : n.kind = .map → n.mapIterator = some ns → ReadsMap ns es →
      Reads n (.map es)
/-- The elements of a list. -/
inductive ReadsList : List Node → List Data → Prop
  | nil : ReadsList [] []
  | cons {n d ns ds} : Reads n d → ReadsList ns ds → ReadsList (n :: ns) (d :: ds)
/-- The entries of a map. -/
inductive ReadsMap : List (Bytes × Node) → List (Bytes × Data) → Prop
  | nil : ReadsMap [] []
  | cons {k n d ns ds} : Reads n d → ReadsMap ns ds →
      ReadsMap ((k, n) :: ns) ((k, d) :: ds)
end

/-- Two values that hold the same: for trees the same rows, whatever their lookup
maps. -/
def SameValue : Own → Own → Prop
  | .tree t, .tree u => t.t = u.t
  | v, w => v = w

end Verif.Spec
