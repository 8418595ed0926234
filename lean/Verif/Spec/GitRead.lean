import Verif.Spec.Accept

/-!
# What git reads

How git itself reads commits, tags and trees (`parse_commit_buffer` in commit.c,
`find_commit_subject` in commit.c, `parse_tag_buffer` in tag.c,
`decode_tree_entry` in tree-walk.c).
-/

namespace Verif.Spec

open Verif

/-! ## Commits -/

/-- The parents are the lines directly behind the tree that begin with `parent `.
Git stops where it sees another word or where less is left than such a line
needs. -/
inductive GitParents : Bytes → List Bytes → Bytes → Prop
  | stop (b : Bytes) (h : ¬ b!"parent " <+: b ∨ b.length < 48) : GitParents b [] b
  | more (h sha r r' : Bytes) (ps : List Bytes) (hr : Ref h sha) (hs : GitParents r ps r') :
      GitParents (b!"parent " ++ h ++ LF :: r) (sha :: ps) r'

/-- Git reads the commit with this tree and these parents; `rest` follows them. -/
def GitCommit (body tree : Bytes) (ps : List Bytes) (rest : Bytes) : Prop :=
  ∃ h r, Ref h tree ∧ body = b!"tree " ++ h ++ LF :: r ∧ GitParents r ps rest

/-- Lines of parents, each ending in LF. -/
def parentLines (hs : List Bytes) : Bytes := unlines (hs.map (b!"parent " ++ ·))

/-- Git takes the lines `ls` before the first empty line for headers, and all
behind it for the message. -/
def GitMessage (body : Bytes) (ls : List Bytes) (m : Bytes) : Prop :=
  body = unlines ls ++ LF :: m ∧ ∀ l ∈ ls, l ≠ [] ∧ LF ∉ l

/-- Every signature and merge tag among the header lines is closed: a signature by
its end line, the headers of a merge tag by a line that is a single space. -/
inductive Closed : List Bytes → Prop
  | nil : Closed []
  | line (l : Bytes) (ls : List Bytes) (hm : ¬ b!"mergetag object " <+: l) (hg : ¬ b!"gpgsig " <+: l)
      (h : Closed ls) : Closed (l :: ls)
  | sig (l : Bytes) (sig ls : List Bytes) (hl : b!"gpgsig " <+: l) (hs : sigEnd ∉ sig) (h : Closed ls) :
      Closed (l :: (sig ++ sigEnd :: ls))
  | merge (x : Bytes) (head msg ls : List Bytes) (hh : b!" " ∉ head) (hm : ∀ l ∈ msg, l.head? = some SP)
      (hn : ∀ l, ls.head? = some l → l.head? ≠ some SP) (h : Closed ls) :
      Closed ((b!"mergetag object " ++ x) :: (head ++ b!" " :: (msg ++ ls)))

/-! ## Tags -/

/-- Git reads the tag with this object, type and name; `rest` follows them. -/
def GitTag (body object typ name rest : Bytes) : Prop :=
  ∃ h, Ref h object ∧ typ ∈ [b!"blob", b!"tree", b!"commit", b!"tag"] ∧ LF ∉ name ∧
    body = b!"object " ++ h ++ LF :: (b!"type " ++ typ ++ LF :: (b!"tag " ++ name ++ LF :: rest))

/-! ## Trees -/

/-- Git reads the entry: the mode is an octal number, the name is not empty. -/
structure GitEntry (e : Entry) : Prop where
  mode : e.mode ≠ [] ∧ ∀ c ∈ e.mode, 0x30 ≤ c ∧ c ≤ 0x37
  name : e.name ≠ [] ∧ NUL ∉ e.name
  sha : e.sha.length = 20

/-- Git reads the tree with these entries. -/
def GitTree (body : Bytes) (es : List Entry) : Prop := body = treeBody es ∧ ∀ e ∈ es, GitEntry e

end Verif.Spec
