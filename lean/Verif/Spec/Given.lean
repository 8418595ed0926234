import Verif.Spec.Fits
import Verif.Spec.GitWrite

/-!
# Files that are given back

The bytes that decoding and encoding give back unchanged, for a reader with a buffer
of `N` bytes, described without the decoder: the size is the length of the body in
plain digits, and the body is that of a value that fits the format and the buffer.
-/

namespace Verif.Spec

/-- The text of a tag; without a message there is no empty line. -/
def tagWhole (t : Tag) : Bytes :=
  unlines [b!"object " ++ hex (digest t.object), b!"type " ++ t.typ, b!"tag " ++ t.tag,
    b!"tagger " ++ personText t.tagger] ++ messageText (if t.message = [] then none else some t.message)

/-- The file is the plain form of an object. -/
inductive PlainFile (N : Nat) (x : Bytes) : Prop
  | blob (content : Bytes) (h : Framed b!"blob" content x)
  | tree (es : List Entry) (ok : EntriesOk es) (h : Framed b!"tree" (treeBody es) x)
  | tag (t : Tag) (ok : TagFits N t) (h : Framed b!"tag" (tagWhole t) x)
  | commit (c : Commit) (author committer : PersonInfo) (ok : CommitFits N c author committer)
      (h : Framed b!"commit" (commitBody c author committer) x)

/-- The header line is shorter than the buffer, or just fills it and can be one of
those that may. -/
def LineFits (N : Nat) (l : Bytes) : Prop :=
  l.length < N ∨ l.length = N ∧ ∃ w ∈ [b!" type ", b!" tag ", b!" tagger ", b!"tagger "], w <+: l

/-- A merged tag fits the buffer: its header lines, which get a space before them,
may just fill it, the lines of its message have to be shorter. -/
structure MadeTag.FitsMerged (N : Nat) (more : Bytes) (t : MadeTag) : Prop where
  header : ∀ l ∈ t.lines more, (SP :: l).length ≤ N ∧ l.getLast? ≠ some CR
  message : ∀ l ∈ textLines t.msg, (SP :: l).length < N ∧ l.getLast? ≠ some CR

/-- A commit fits the buffer. -/
structure MadeCommit.FitsBuffer (N : Nat) (more : Bytes) (g : MadeCommit) : Prop where
  merged : ∀ t, Extra.mergetag t ∈ g.extra → t.FitsMerged N more
  lines : LinesFit N ({ g with extra := g.extra.filter fun | .mergetag _ => false | .other _ _ => true }.lines more)

/-- What can be expressed in the format, with header lines of any length. -/
def Storable : Obj → Prop
  | .blob b => ∃ content : Bytes, Framed b!"blob" content b ∧ content.length < 2 ^ 63
  | .tree t => ∃ es, EntriesOk es ∧ t.t = es.map Entry.row
  | .tag t => TagFits 4096 t
  | .commit c => ∃ a k, CommitFits 4096 c a k

end Verif.Spec
