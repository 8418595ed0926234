import Verif.Spec.Objects
import Verif.Spec.Order
import Verif.Spec.Survive
import Verif.Spec.Lookup
import Verif.Model.Graph

/-!
# The graph of git objects

A repository as git sees it: objects under their hashes, which refer to each other
by hashes.
-/

namespace Verif.Spec

open Verif

/-- A git object: the content of a file, the entries of a directory, the header
items and the message of a commit, the header lines and the message of a tag. -/
inductive GitObj where
  | blob (content : Bytes)
  | tree (es : List Entry)
  | commit (is : List Item) (msg : Bytes)
  | tag (is : List TagItem) (msg : Option Bytes)

/-- The body of the object. -/
def GitObj.body : GitObj → Bytes
  | .blob c => c
  | .tree es => treeBody es
  | .commit is msg => itemsBody is msg
  | .tag is msg => tagItemsText is ++ messageText msg

/-- The word for its type. -/
def GitObj.word : GitObj → Bytes
  | .blob _ => b!"blob"
  | .tree _ => b!"tree"
  | .commit _ _ => b!"commit"
  | .tag _ _ => b!"tag"

/-- The serialization of the object. -/
def GitObj.Text (o : GitObj) (out : Bytes) : Prop := Framed o.word o.body out

/-- The trees that a commit names; the last one counts. -/
def treeRefs (is : List Item) : List Bytes := is.filterMap fun | .tree _ sha => some sha | _ => none

/-- The parents that a commit names. -/
def parentRefs (is : List Item) : List Bytes := is.filterMap fun | .parent _ sha => some sha | _ => none

/-- The objects that the merge tags of a commit name. -/
def mergeRefs (is : List Item) : List Bytes :=
  is.filterMap fun | .mergetag _ t => some (digest t.object) | _ => none

/-- The objects that a tag names; the last one counts. -/
def objectRefs (is : List TagItem) : List Bytes := is.filterMap fun | .object _ sha => some sha | _ => none

/-- The object is well formed and not too large; a commit has a tree, a tag has an
object. -/
def GitObj.Ok (o : GitObj) : Prop :=
  o.body.length < 2 ^ 63 ∧
  match o with
  | .blob _ => True
  | .tree es => EntriesOk es
  | .commit is _ => ItemsOk 4096 is ∧ treeRefs is ≠ []
  | .tag is _ => (∀ i ∈ is, i.Ok 4096) ∧ objectRefs is ≠ []

/-- What kind of object a reference is meant for. -/
inductive Want where
  | tree | commit | any
  deriving DecidableEq

/-- An object is what the reference is meant for. -/
def Meant : Want → GitObj → Prop
  | .any, _ => True
  | .tree, .tree _ => True
  | .commit, .commit _ _ => True
  | _, _ => False

/-- At the end of a path, the object holds a reference to the object with the
given hash. -/
inductive Refers : GitObj → List Seg → Want → Bytes → Prop
  | tree (is : List Item) (msg : Bytes) (g : Seg) (sha : Bytes) (hg : Spells g b!"tree")
      (h : (treeRefs is).getLast? = some sha) : Refers (.commit is msg) [g] .tree sha
  | parent (is : List Item) (msg : Bytes) (g k : Seg) (i : Nat) (sha : Bytes)
      (hg : Spells g b!"parents") (hk : StandsFor k i) (h : (parentRefs is)[i]? = some sha) :
      Refers (.commit is msg) [g, k] .commit sha
  | merge (is : List Item) (msg : Bytes) (g k f : Seg) (i : Nat) (sha : Bytes)
      (hg : Spells g b!"mergetag") (hk : StandsFor k i) (hf : Spells f b!"object")
      (h : (mergeRefs is)[i]? = some sha) : Refers (.commit is msg) [g, k, f] .any sha
  | object (is : List TagItem) (msg : Option Bytes) (g : Seg) (sha : Bytes) (hg : Spells g b!"object")
      (h : (objectRefs is).getLast? = some sha) : Refers (.tag is msg) [g] .any sha
  | entry (es : List Entry) (e : Entry) (g f : Seg) (hm : e ∈ es) (hg : Spells g e.name)
      (hf : Spells f b!"hash") : Refers (.tree es) [g, f] .any e.sha

/-- A path leads from object to object through references to objects that are in
the repository and are what the references are meant for. -/
inductive Way (R : Bytes → Option GitObj) : GitObj → List Seg → GitObj → Prop
  | here (o : GitObj) : Way R o [] o
  | step (a : GitObj) (p : List Seg) (w : Want) (sha : Bytes) (b : GitObj) (q : List Seg) (c : GitObj)
      (h : Refers a p w sha) (hb : R sha = some b) (hf : Meant w b) (hq : Way R b q c) :
      Way R a (p ++ q) c

/-- The storage of a link system holds exactly the objects of a repository, each
well formed and under its hash. -/
structure Stores (L : LinkSys) (R : Bytes → Option GitObj) : Prop where
  there : ∀ sha o, R sha = some o → o.Ok ∧
    ∃ data, L.get (cidOf sha) = .ok data ∧ o.Text data ∧ L.sha1 data = sha
  only : ∀ sha, R sha = none → ∃ e, L.get (cidOf sha) = .err e

/-- The node shows the object: a blob is a node with the serialization as its bytes;
the others are nodes of the package, in either view. -/
inductive Shows : GitObj → Node → Prop
  | blob (c out : Bytes) (n : Node) (h : Framed b!"blob" c out) (hn : n.asBytes = .ok out) :
      Shows (.blob c) n
  | tree (es : List Entry) (t : Tree) (n : Node) (h : t.t = es.map Entry.row) (ha : Agree (.tree t))
      (hn : NodeOf n (.tree t)) : Shows (.tree es) n
  | commit (is : List Item) (msg : Bytes) (n : Node) (hn : NodeOf n (.commit (commitOf is msg))) :
      Shows (.commit is msg) n
  | tag (is : List TagItem) (msg : Option Bytes) (n : Node)
      (hn : NodeOf n (.tag (tagOf is (msg.getD [])))) : Shows (.tag is msg) n

/-- The object has the form that is written for it: a commit or tag has its headers
in the encoder's order, and a tag has no empty message. -/
def Kept : GitObj → Prop
  | .blob _ => True
  | .tree _ => True
  | .commit is _ => EncoderOrder is
  | .tag is msg => TagEncoderOrder is ∧ msg ≠ some []

/-- A commit without an author or without a committer. -/
def NoPeople : GitObj → Prop
  | .commit is _ => (∀ p, Item.author p ∉ is) ∨ ∀ p, Item.committer p ∉ is
  | _ => False

/-- What a node of the package holds is small enough for the reader: header lines
fit its buffer, and the size fits the header. -/
def Small : Obj → Prop
  | .blob _ => True
  | .tree t => ∀ out, encObj (.tree t) = .ok out → out.length < 2 ^ 63
  | .tag t => (b!"type " ++ t.typ).length < 4096 ∧ (b!"tag " ++ t.tag).length < 4096 ∧
      (b!"tagger " ++ personText t.tagger).length < 4096
  | .commit c => ∀ a k, c.author = some a → c.committer = some k →
      ShortLines 4096 (commitHeader c a k) ∧ (commitBody c a k).length < 2 ^ 63

/-- What a node of the package holds can be expressed in the format: a blob holds
the serialization of a blob. -/
def Writable : Obj → Prop
  | .blob b => ∃ content : Bytes, Framed b!"blob" content b ∧ content.length < 2 ^ 63
  | .tree t => ∃ es, EntriesOk es ∧ t.t = es.map Entry.row
  | .tag t => TagOk 4096 t
  | .commit c => ∃ a k, CommitOk 4096 c a k

/-- The node holds the same as the object; of a tree the rows count. -/
def Holds (n : Node) : Obj → Prop
  | .blob b => n.asBytes = .ok b
  | .tree t => ∃ t', n = .own (.tree t') ∧ t'.t = t.t
  | .tag t => n = .own (.tag t)
  | .commit c => n = .own (.commit c)

end Verif.Spec
