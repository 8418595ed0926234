import Verif.Spec.Calls
import Verif.Spec.Gen
import Verif.Model.Builders

/-!
# Specification: data given call by call

The calls by which a decoder of another codec (dag-json, say) hands the data it
reads to an assembler: every scalar by one call, every list and map by its elements
and entries.
-/

namespace Verif.Spec

open Verif Calls

mutual

/-- `cs` gives the data of the foreign node `n` to an assembler. For lists the
decoder may give any size hint, and entries of maps may be named in either way. -/
inductive Feeds : Node → List (Nat × Call) → Prop where
  | null : Feeds .null [(0, .assignNull)]
  | bool (b : Bool) : Feeds (.bool b) [(0, .assignOther)]
  | int (i : Int) : Feeds (.int i) [(0, .assignOther)]
  | float (n : Nat) : Feeds (.float n) [(0, .assignOther)]
  | bytes (b : Bytes) : Feeds (.bytes b) [(0, .assignOther)]
  | str (b : Bytes) : Feeds (.str b) [(0, .assignString b)]
  | link (l : Link) : Feeds (.link l) [(0, .assignLink l)]
  | list (hint : Int) {ns : List Node} {cs : List (Nat × Call)} :
      FeedsList ns cs → Feeds (.list ns) ((0, .beginList hint) :: (cs ++ [(0, .finish)]))
  | map {es : List (Bytes × Node)} {cs : List (Nat × Call)} :
      FeedsMap es cs → Feeds (.map es) ((0, .beginMap) :: (cs ++ [(0, .finish)]))

/-- The same for the elements of a list. -/
inductive FeedsList : List Node → List (Nat × Call) → Prop where
  | nil : FeedsList [] []
  | cons {n : Node} {ns : List Node} {c cs : List (Nat × Call)} :
      Feeds n c → FeedsList ns cs → FeedsList (n :: ns) ((0, .assembleValue) :: (deeper c ++ cs))

/-- The same for the entries of a map. -/
inductive FeedsMap : List (Bytes × Node) → List (Nat × Call) → Prop where
  | nil : FeedsMap [] []
  | cons {k : Bytes} {n : Node} {es : List (Bytes × Node)} {nm c cs : List (Nat × Call)} :
      Names k nm → Feeds n c → FeedsMap es cs → FeedsMap ((k, n) :: es) (nm ++ (deeper c ++ cs))

end

/-- The calls one after the other, up to the first error. -/
def drive : Frame → List (Nat × Call) → Res Frame
  | a, [] => .ok a
  | a, (d, c) :: r =>
    match a.callAt d c with
    | .ok a' => drive a' r
    | .err e _ => .err e
    | .panic => .panic
    | .noHandle => .panic

/-- A fresh builder, the calls up to the first error, and `Build`. -/
def buildBy (t : T) (cs : List (Nat × Call)) : Res Val := do
  let a ← drive (fresh t) cs
  a.build

/-! The Go values as values of the call model. -/

def personVal (p : PersonInfo) : Val :=
  .struct [some (.text p.date), some (.text p.timezone), some (.text p.email), some (.text p.name)]

def treeEntryVal (e : TreeEntry) : Val := .struct [some (.text e.mode), some (.link e.hash)]

def tagVal (t : Tag) : Val :=
  .struct [some (.link t.object), some (.text t.typ), some (.text t.tag), some (personVal t.tagger),
    some (.text t.message)]

def commitVal (c : Commit) : Val :=
  .struct [some (.link c.tree), some (.list (c.parents.map .link)), some (.text c.message),
    c.author.map personVal, c.committer.map personVal, c.encoding.map .text, c.signature.map .text,
    some (.list (c.mergetag.map tagVal)), some (.list (c.other.map .text))]

/-- A typed value as a value of the call model. Blobs and trees are not part of that
model. -/
def valOf : Own → Val
  | .string b | .gpgSig b => .text b
  | .link l | .treeLink l | .commitLink l => .link l
  | .linkList ls => .list (ls.map .link)
  | .stringList ls => .list (ls.map .text)
  | .tagList ts => .list (ts.map tagVal)
  | .person p => personVal p
  | .treeEntry e => treeEntryVal e
  | .tag t => tagVal t
  | .commit c => commitVal c
  | .blob _ | .tree _ => .struct []

/-- The prototype of a type of the call model. -/
def protoOf : T → Proto
  | .string => .string
  | .gpgSig => .gpgSig
  | .link => .link
  | .treeLink => .treeLink
  | .commitLink => .commitLink
  | .linkList => .linkList
  | .stringList => .stringList
  | .tagList => .tagList
  | .person => .person
  | .treeEntry => .treeEntry
  | .tag => .tag
  | .commit => .commit

/-- The type in the schema. -/
def schemaType : T → Ty
  | .string => .string
  | .gpgSig => .gpgSig
  | .link => .link
  | .treeLink => .treeLink
  | .commitLink => .commitLink
  | .linkList => .linkList
  | .stringList => .stringList
  | .tagList => .tagList
  | .person => .person
  | .treeEntry => .treeEntry
  | .tag => .tag
  | .commit => .commit

mutual

/-- Plain data as a node that is not of the package. -/
def Data.node : Data → Node
  | .str b => .str b
  | .bytes b => .bytes b
  | .link l => .link l
  | .list ds => .list (Data.nodes ds)
  | .map es => .map (Data.entries es)
  | .absent => .absent

def Data.nodes : List Data → List Node
  | [] => []
  | d :: ds => d.node :: Data.nodes ds

def Data.entries : List (Bytes × Data) → List (Bytes × Node)
  | [] => []
  | (k, d) :: es => (k, d.node) :: Data.entries es

end

end Verif.Spec
