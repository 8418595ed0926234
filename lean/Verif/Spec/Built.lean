import Verif.Spec.Fsck

/-!
# What is written for a value that a client built, and what git makes of it
-/

namespace Verif.Spec

open Verif

/-- What git looks for by the link: the last twenty bytes of the multihash,
whatever the codec and the hash function are. -/
def Denotes (l : Link) (sha : Bytes) : Prop :=
  ∃ k p, l = .cid k ∧ k.hash = p ++ sha ∧ sha.length = 20

/-- The link holds a CID. -/
def HasCid (l : Link) : Prop := ∃ k, l = .cid k

/-! ## Empty lines -/

/-- The text, at the beginning of a line, has an empty line in it. -/
def Blank (x : Bytes) : Prop := [LF, LF] <:+: LF :: x

/-- Nothing, or text that ends with its line. -/
def Finished (x : Bytes) : Prop := x = [] ∨ x.getLast? = some LF

/-- No text of the commit makes an empty line among the headers. -/
structure Unbroken (c : Commit) (author committer : PersonInfo) : Prop where
  author : ¬ Blank (b!"author " ++ personText author ++ [LF])
  committer : ¬ Blank (b!"committer " ++ personText committer ++ [LF])
  encoding : ∀ e, c.encoding = some e → ¬ Blank (b!"encoding " ++ e ++ [LF])
  typ : ∀ t ∈ c.mergetag, ¬ Blank (b!" type " ++ t.typ ++ [LF])
  tag : ∀ t ∈ c.mergetag, ¬ Blank (b!" tag " ++ t.tag ++ [LF])
  tagger : ∀ t ∈ c.mergetag, ¬ Blank (b!" tagger " ++ personText t.tagger ++ [LF])
  message : ∀ t ∈ c.mergetag, ¬ Blank t.message
  signature : ∀ g, c.signature = some g → ¬ Blank g
  other : ∀ l ∈ c.other, ¬ Blank (l ++ [LF])

/-! ## Bytes that git does not want -/

/-- All the text of the commit. -/
def textsOf (c : Commit) (author committer : PersonInfo) : List Bytes :=
  [personText author, personText committer] ++ c.encoding.toList
    ++ c.mergetag.flatMap (fun t => [t.typ, t.tag, personText t.tagger, t.message])
    ++ c.signature.toList ++ c.other ++ [c.message]

/-! ## Trees -/

/-- The row of a tree is written as this entry. -/
def RowOf (r : Bytes × TreeEntry) (e : Entry) : Prop :=
  e.name = r.1 ∧ e.mode = r.2.mode ∧ Denotes r.2.hash e.sha

/-- The mode as a number. -/
def octal (m : Bytes) : Nat := m.foldl (fun n c => 8 * n + (c.toNat - 48)) 0

/-- What fsck sorts an entry by: directories as if they ended in a slash. -/
def fsckName (mode name : Bytes) : Bytes :=
  if octal mode / 4096 % 16 = 4 then name ++ [0x2f] else name

/-- Bytes in order, a prefix before what it begins. -/
inductive Before : Bytes → Bytes → Prop
  | nil (c : UInt8) (y : Bytes) : Before [] (c :: y)
  | lt (a b : UInt8) (x y : Bytes) (h : a < b) : Before (a :: x) (b :: y)
  | eq (a : UInt8) (x y : Bytes) (h : Before x y) : Before (a :: x) (a :: y)

/-- fsck finds no error in the tree (`fsck_tree` and `verify_ordered` in fsck.c): git
reads it, the entries are in order, and no name occurs twice. -/
def FsckTree (body : Bytes) (es : List Entry) : Prop :=
  GitTree body es ∧ es.Pairwise (fun a b => Before (fsckName a.mode a.name) (fsckName b.mode b.name)) ∧ (es.map (·.name)).Nodup

end Verif.Spec
