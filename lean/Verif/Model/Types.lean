import Verif.Model.Cid

/-!
# Go values behind the node types (`/repo/ipldsch_types.go`)

Only the data is represented here. Optional fields that the Go structs keep as a
`Maybe` plus value are `Option`s.
-/

namespace Verif

/-- `_PersonInfo` (/repo/ipldsch_types.go). Lines 91-97. -/
structure PersonInfo where
  name : Bytes
  email : Bytes
  date : Bytes
  timezone : Bytes
  deriving DecidableEq, Repr

/-- Zero value of `_PersonInfo`. /repo/ipldsch_types.go:92-97. -/
def PersonInfo.zero : PersonInfo := ⟨[], [], [], []⟩

/-- `_Tag` (/repo/ipldsch_types.go). Lines 110-117. -/
structure Tag where
  object : Link
  typ : Bytes
  tag : Bytes
  tagger : PersonInfo
  message : Bytes
  deriving DecidableEq, Repr

/-- `_Tag{}` (/repo/tag.go:26,77). -/
def Tag.zero : Tag := ⟨.nil, [], [], .zero, []⟩

/-- `_Commit` (/repo/ipldsch_types.go). Lines 59-70. -/
structure Commit where
  tree : Link
  parents : List Link
  message : Bytes
  author : Option PersonInfo
  committer : Option PersonInfo
  encoding : Option Bytes
  signature : Option Bytes
  mergetag : List Tag
  other : List Bytes
  deriving DecidableEq, Repr

/-- `_Commit{parents: ...{[]}}` (/repo/commit.go:24-26). -/
def Commit.zero : Commit := ⟨.nil, [], [], none, none, none, none, [], []⟩

/-- `_TreeEntry` (/repo/ipldsch_types.go). Lines 137-141. -/
structure TreeEntry where
  mode : Bytes
  hash : Link
  deriving DecidableEq, Repr

/-- `_Tree` (/repo/ipldsch_types.go): `t` is the ordered table of entries, `m`
the Go map from names to entries, here an association list with at most one
binding per key. In the Go struct the map holds pointers into the table; that
aliasing is modelled separately in `Verif.Model.TreeHeap`. Lines 126-134. -/
structure Tree where
  m : List (Bytes × TreeEntry)
  t : List (Bytes × TreeEntry)
  deriving DecidableEq, Repr

/-- Go map lookup. As in /repo/ipldsch_satisfaction.go:6791-6801. -/
def mapGet (m : List (Bytes × TreeEntry)) (k : Bytes) : Option TreeEntry :=
  match m with
  | [] => none
  | (k', v) :: r => if k' = k then some v else mapGet r k

/-- Go map assignment `m[k] = v`. As in /repo/ipldsch_satisfaction.go:7364-7395.
-/
def mapSet (m : List (Bytes × TreeEntry)) (k : Bytes) (v : TreeEntry) : List (Bytes × TreeEntry) :=
  (k, v) :: m.filter (fun p => p.1 ≠ k)

/-- A typed node of the package: what `ParseObject` returns and what the
decoders hand to the assembler. /repo/unmarshal.go:39-75. -/
inductive Obj where
  | blob (b : Bytes)
  | tree (t : Tree)
  | commit (c : Commit)
  | tag (t : Tag)
  deriving DecidableEq, Repr

end Verif
