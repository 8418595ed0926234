import Verif.Model.Types

/-!
# Nodes (`ipld.Node`)

The nodes that the encoders and the builders can be given: the package's own
typed nodes, their representation views, and foreign nodes as built by
go-ipld-prime's `basicnode` package. Only the methods the code calls are
modelled.
-/

namespace Verif

/-- Values of the package's own node types (`/repo/ipldsch_types.go:60-330`), in
their typed view. -/
inductive Own where
  | blob (b : Bytes)                 -- *_Blob
  | string (b : Bytes)               -- *_String
  | gpgSig (b : Bytes)               -- *_GpgSig
  | link (l : Link)                  -- *_Link
  | treeLink (l : Link)              -- *_Tree_Link
  | commitLink (l : Link)            -- *_Commit_Link
  | linkList (ls : List Link)        -- *_Commit_Link_List
  | stringList (ls : List Bytes)     -- *_String_List
  | tagList (ts : List Tag)          -- *_Tag_List
  | person (p : PersonInfo)          -- *_PersonInfo
  | treeEntry (e : TreeEntry)        -- *_TreeEntry
  | tree (t : Tree)                  -- *_Tree
  | tag (t : Tag)                    -- *_Tag
  | commit (c : Commit)              -- *_Commit
  deriving DecidableEq, Repr

/-- A value of the interface type `ipld.Node`. `own` is a typed node of the
package and `repr` a node of one of its separate representation types
(`_Commit__Repr` and so on). Everything else is foreign: `absent` is
`ipld.Absent`, the other constructors are `basicnode` values. A foreign map
lists its entries in iteration order and may repeat keys.
/repo/ipldsch_satisfaction.go:209, 1045, 2356, 3606. -/
inductive Node where
  | null
  | absent
  | bool (b : Bool)
  | int (i : Int)
  | float (n : Nat)
  | str (b : Bytes)
  | bytes (b : Bytes)
  | link (l : Link)
  | list (ns : List Node)
  | map (es : List (Bytes × Node))
  | own (v : Own)
  | repr (v : Own)

/-- `Representation()`. The representation types of the scalars are aliases of
the types themselves (/repo/ipldsch_satisfaction.go:209, 2010, 2810, 3015, 4327,
8587); the others are separate types (lines 1045, 2356, 3606, 4673, 5556, 6456,
7133, 7951). -/
def Own.representation : Own → Node
  | .blob b => .own (.blob b)
  | .string b => .own (.string b)
  | .gpgSig b => .own (.gpgSig b)
  | .link l => .own (.link l)
  | .treeLink l => .own (.treeLink l)
  | .commitLink l => .own (.commitLink l)
  | v => .repr v

/-- `ipld.Kind`. -/
inductive Kind where
  | null | bool | int | float | string | bytes | link | list | map
  deriving DecidableEq, Repr

/-- `Kind()` of the package's types, e.g. /repo/ipldsch_satisfaction.go:56, 292,
1060, 2096, 3078, 4985, 6788, 7509. -/
def Own.kind : Own → Kind
  | .blob _ => .bytes
  | .string _ | .gpgSig _ => .string
  | .link _ | .treeLink _ | .commitLink _ => .link
  | .linkList _ | .stringList _ | .tagList _ => .list
  | .person _ | .treeEntry _ | .tree _ | .tag _ | .commit _ => .map

/-- `Kind()`. `ipld.Absent` reports the null kind.
/repo/ipldsch_satisfaction.go:56, 292, 1060. -/
def Node.kind : Node → Kind
  | .null | .absent => .null
  | .bool _ => .bool
  | .int _ => .int
  | .float _ => .float
  | .str _ => .string
  | .bytes _ => .bytes
  | .link _ => .link
  | .list _ => .list
  | .map _ => .map
  | .own v | .repr v => v.kind

/-- `IsNull()`: only `ipld.Null`. /repo/ipldsch_satisfaction.go:83, 420, 1201.
-/
def Node.isNull : Node → Bool
  | .null => true
  | _ => false

/-- `AsString()`; `ErrWrongKind` for other kinds.
/repo/ipldsch_satisfaction.go:95, 432, 4213. -/
def Node.asString : Node → Res Bytes
  | .str b => .ok b
  | .own (.string b) | .own (.gpgSig b) | .repr (.string b) | .repr (.gpgSig b) => .ok b
  | _ => .err .wrongKind

/-- `AsBytes()`; `ErrWrongKind` for other kinds.
/repo/ipldsch_satisfaction.go:98-100. -/
def Node.asBytes : Node → Res Bytes
  | .bytes b => .ok b
  | .own (.blob b) | .repr (.blob b) => .ok b
  | _ => .err .wrongKind

/-- `AsLink()`; `ErrWrongKind` for other kinds.
/repo/ipldsch_satisfaction.go:101, 2907-2909. -/
def Node.asLink : Node → Res Link
  | .link l => .ok l
  | .own (.link l) | .own (.treeLink l) | .own (.commitLink l) => .ok l
  | .repr (.link l) | .repr (.treeLink l) | .repr (.commitLink l) => .ok l
  | _ => .err .wrongKind

/-- The value that iteration and lookup of the typed view give for an optional
field: `ipld.Absent` when it is not there
(/repo/ipldsch_satisfaction.go:303-322, 367-394). -/
def optNode {α : Type} (f : α → Own) : Option α → Node
  | none => .absent
  | some a => .own (f a)

/-- The entry that iteration of the representation view gives for an optional
field: skipped when it is not there (/repo/ipldsch_satisfaction.go:1136-1164). -/
def optEntry {α : Type} (k : Bytes) (f : α → Own) : Option α → List (Bytes × Node)
  | none => []
  | some a => [(k, (f a).representation)]

/-- Entries in iteration order of a typed map node: `_PersonInfo__MapItr`
(3117-3139), `_Tag__MapItr` (5026-5051), `_TreeEntry__MapItr` (7544-7560),
`_Commit__MapItr` (353-406), `_Tree__MapItr` (6829-6838). The iterators
themselves are in `Verif.Model.Iter`. -/
def Own.entries : Own → List (Bytes × Node)
  | .person p => [
      (b!"date", .own (.string p.date)),
      (b!"timezone", .own (.string p.timezone)),
      (b!"email", .own (.string p.email)),
      (b!"name", .own (.string p.name))]
  | .treeEntry e => [
      (b!"mode", .own (.string e.mode)),
      (b!"hash", .own (.link e.hash))]
  | .tag t => [
      (b!"object", .own (.link t.object)),
      (b!"type", .own (.string t.typ)),
      (b!"tag", .own (.string t.tag)),
      (b!"tagger", .own (.person t.tagger)),
      (b!"message", .own (.string t.message))]
  | .commit c => [
      (b!"tree", .own (.treeLink c.tree)),
      (b!"parents", .own (.linkList c.parents)),
      (b!"message", .own (.string c.message)),
      (b!"author", optNode .person c.author),
      (b!"committer", optNode .person c.committer),
      (b!"encoding", optNode .string c.encoding),
      (b!"signature", optNode .gpgSig c.signature),
      (b!"mergetag", .own (.tagList c.mergetag)),
      (b!"other", .own (.stringList c.other))]
  | .tree t => t.t.map fun r => (r.1, .own (.treeEntry r.2))
  | _ => []

/-- Entries in iteration order of the representation view of a map node:
`_PersonInfo__ReprMapItr` (3655-3677), `_Tag__ReprMapItr` (5608-5633),
`_TreeEntry__ReprMapItr` (7994-8010), `_Commit__ReprMapItr` (1121-1175),
`_Tree__ReprMapItr` (7166-7172). -/
def Own.reprEntries : Own → List (Bytes × Node)
  | .person p => [
      (b!"date", (Own.string p.date).representation),
      (b!"timezone", (Own.string p.timezone).representation),
      (b!"email", (Own.string p.email).representation),
      (b!"name", (Own.string p.name).representation)]
  | .treeEntry e => [
      (b!"mode", (Own.string e.mode).representation),
      (b!"hash", (Own.link e.hash).representation)]
  | .tag t => [
      (b!"object", (Own.link t.object).representation),
      (b!"type", (Own.string t.typ).representation),
      (b!"tag", (Own.string t.tag).representation),
      (b!"tagger", (Own.person t.tagger).representation),
      (b!"message", (Own.string t.message).representation)]
  | .commit c => [
      (b!"tree", (Own.treeLink c.tree).representation),
      (b!"parents", (Own.linkList c.parents).representation),
      (b!"message", (Own.string c.message).representation)]
      ++ optEntry b!"author" .person c.author
      ++ optEntry b!"committer" .person c.committer
      ++ optEntry b!"encoding" .string c.encoding
      ++ optEntry b!"signature" .gpgSig c.signature
      ++ [(b!"mergetag", (Own.tagList c.mergetag).representation),
      (b!"other", (Own.stringList c.other).representation)]
  | .tree t => t.t.map fun r => (r.1, (Own.treeEntry r.2).representation)
  | _ => []

/-- `MapIterator()`, as the list of entries still to come; `none` is the nil
iterator that nodes of other kinds return. /repo/ipldsch_satisfaction.go:71,
344, 1112. -/
def Node.mapIterator : Node → Option (List (Bytes × Node))
  | .map es => some es
  | .own v => if v.kind = .map then some v.entries else none
  | .repr v => if v.kind = .map then some v.reprEntries else none
  | _ => none

/-- Elements of the package's list nodes (`_Commit_Link_List__ListItr` 2131,
`_String_List__ListItr` 4448, `_Tag_List__ListItr` 6231). -/
def Own.elems : Own → List Node
  | .linkList ls => ls.map fun l => .own (.commitLink l)
  | .stringList ls => ls.map fun l => .own (.string l)
  | .tagList ts => ts.map fun t => .own (.tag t)
  | _ => []

/-- Elements of the representation views of the list nodes
(`_Commit_Link_List__ReprListItr` 2396, `_String_List__ReprListItr` 4713,
`_Tag_List__ReprListItr` 6496). -/
def Own.reprElems : Own → List Node
  | .linkList ls => ls.map fun l => (Own.commitLink l).representation
  | .stringList ls => ls.map fun l => (Own.string l).representation
  | .tagList ts => ts.map fun t => (Own.tag t).representation
  | _ => []

/-- `ListIterator()`, as the list of elements still to come; `none` is nil.
/repo/ipldsch_satisfaction.go:74, 411, 2126. -/
def Node.listIterator : Node → Option (List Node)
  | .list ns => some ns
  | .own v => if v.kind = .list then some v.elems else none
  | .repr v => if v.kind = .list then some v.reprElems else none
  | _ => none

/-- First entry with a given key. -/
def entryGet : List (Bytes × Node) → Bytes → Option Node
  | [], _ => none
  | (k', v) :: r, k => if k' = k then some v else entryGet r k

/-- `LookupByString` of the typed structs (295-329, 3081-3095, 4988-5003,
7512-7522): a `switch` over the field names. -/
def Own.lookup (v : Own) (k : Bytes) : Res Node :=
  match v with
  | .person p =>
    if k = b!"date" then .ok (.own (.string p.date))
    else if k = b!"timezone" then .ok (.own (.string p.timezone))
    else if k = b!"email" then .ok (.own (.string p.email))
    else if k = b!"name" then .ok (.own (.string p.name))
    else .err .invalidKey
  | .treeEntry e =>
    if k = b!"mode" then .ok (.own (.string e.mode))
    else if k = b!"hash" then .ok (.own (.link e.hash))
    else .err .invalidKey
  | .tag t =>
    if k = b!"object" then .ok (.own (.link t.object))
    else if k = b!"type" then .ok (.own (.string t.typ))
    else if k = b!"tag" then .ok (.own (.string t.tag))
    else if k = b!"tagger" then .ok (.own (.person t.tagger))
    else if k = b!"message" then .ok (.own (.string t.message))
    else .err .invalidKey
  | .commit c =>
    if k = b!"tree" then .ok (.own (.treeLink c.tree))
    else if k = b!"parents" then .ok (.own (.linkList c.parents))
    else if k = b!"message" then .ok (.own (.string c.message))
    else if k = b!"author" then .ok (optNode .person c.author)
    else if k = b!"committer" then .ok (optNode .person c.committer)
    else if k = b!"encoding" then .ok (optNode .string c.encoding)
    else if k = b!"signature" then .ok (optNode .gpgSig c.signature)
    else if k = b!"mergetag" then .ok (.own (.tagList c.mergetag))
    else if k = b!"other" then .ok (.own (.stringList c.other))
    else .err .invalidKey
  | .tree t =>
    match mapGet t.m k with
    | some e => .ok (.own (.treeEntry e))
    | none => .err .notExists
  | _ => .err .wrongKind

/-- What `LookupByString` of the representation view gives for an optional
field: `ErrNotExists` when it is not there (1071-1090). -/
def optLookup {α : Type} (f : α → Own) : Option α → Res Node
  | none => .err .notExists
  | some a => .ok (f a).representation

/-- `LookupByString` of the representation views (1063-1097, 3619-3632,
5570-5585, 7962-7971, 7140-7146). -/
def Own.reprLookup (v : Own) (k : Bytes) : Res Node :=
  match v with
  | .person p =>
    if k = b!"date" then .ok (Own.string p.date).representation
    else if k = b!"timezone" then .ok (Own.string p.timezone).representation
    else if k = b!"email" then .ok (Own.string p.email).representation
    else if k = b!"name" then .ok (Own.string p.name).representation
    else .err .invalidKey
  | .treeEntry e =>
    if k = b!"mode" then .ok (Own.string e.mode).representation
    else if k = b!"hash" then .ok (Own.link e.hash).representation
    else .err .invalidKey
  | .tag t =>
    if k = b!"object" then .ok (Own.link t.object).representation
    else if k = b!"type" then .ok (Own.string t.typ).representation
    else if k = b!"tag" then .ok (Own.string t.tag).representation
    else if k = b!"tagger" then .ok (Own.person t.tagger).representation
    else if k = b!"message" then .ok (Own.string t.message).representation
    else .err .invalidKey
  | .commit c =>
    if k = b!"tree" then .ok (Own.treeLink c.tree).representation
    else if k = b!"parents" then .ok (Own.linkList c.parents).representation
    else if k = b!"message" then .ok (Own.string c.message).representation
    else if k = b!"author" then optLookup .person c.author
    else if k = b!"committer" then optLookup .person c.committer
    else if k = b!"encoding" then optLookup .string c.encoding
    else if k = b!"signature" then optLookup .gpgSig c.signature
    else if k = b!"mergetag" then .ok (Own.tagList c.mergetag).representation
    else if k = b!"other" then .ok (Own.stringList c.other).representation
    else .err .invalidKey
  | .tree t =>
    match mapGet t.m k with
    | some e => .ok (Own.treeEntry e).representation
    | none => .err .notExists
  | _ => .err .wrongKind

/-- `LookupByString`. /repo/ipldsch_satisfaction.go:59, 295-330, 1063-1098. -/
def Node.lookup : Node → Bytes → Res Node
  | .map es, k =>
    match entryGet es k with
    | some v => .ok v
    | none => .err .notExists
  | .own v, k => v.lookup k
  | .repr v, k => v.reprLookup k
  | _, _ => .err .wrongKind

/-- `Length()` of the struct types and trees: the constants at 414, 3147, 5059,
7568 and `len(n.t)` at 6846. Other kinds are not needed. -/
def Own.length : Own → Int
  | .person _ => 4
  | .treeEntry _ => 2
  | .tag _ => 5
  | .commit _ => 9
  | .tree t => t.t.length
  | .linkList ls => ls.length
  | .stringList ls => ls.length
  | .tagList ts => ts.length
  | _ => -1

/-- `Length()` of the representation views: 1182-1197 (counts down from 9 for
every absent field), 3684, 5640, 8017, 7180. -/
def Own.reprLength : Own → Int
  | .commit c =>
    9 - (if c.author = none then 1 else 0) - (if c.committer = none then 1 else 0)
      - (if c.encoding = none then 1 else 0) - (if c.signature = none then 1 else 0)
  | v => v.length

end Verif
