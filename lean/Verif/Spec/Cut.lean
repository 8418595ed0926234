import Verif.Spec.Stdout

/-!
# Streams that stop early

What a stream means that stops in the middle of a header. The reference for this
is the bytes that are there: a last line without its end counts as a line.
-/

namespace Verif.Spec

/-- What the last header line of a tag means, possibly cut short: `t` from the
lines before it becomes the second tag. -/
inductive TagCut (t : Tag) : Bytes → Tag → Prop
  | object (x : Bytes) (l : Link) (h : RefLink x l) : TagCut t (b!"object " ++ x) { t with object := l }
  | typ (x : Bytes) : TagCut t (b!"type " ++ x) { t with typ := x }
  | tag (x : Bytes) : TagCut t (b!"tag " ++ x) { t with tag := x }
  | tagger (p : Bytes) (y : PersonInfo) (hw : b!"tagger " <+: p) (h : PersonRead p y) :
      TagCut t p { t with tagger := y }
  | unknown (p : Bytes) (h : ∀ w ∈ tagWords, ¬ w <+: p) : TagCut t p t

/-- What the last header line of a commit means, possibly cut short. It counts as
it stands, so what is left of a keyword becomes a line of its own. A merge tag of
which there is only the first line has only an object. -/
inductive LineCut (c : Commit) : Bytes → Commit → Prop
  | tree (x : Bytes) (l : Link) (h : RefLink x l) : LineCut c (b!"tree " ++ x) { c with tree := l }
  | parent (x : Bytes) (l : Link) (h : RefLink x l) :
      LineCut c (b!"parent " ++ x) { c with parents := c.parents ++ [l] }
  | author (p : Bytes) (y : PersonInfo) (hw : b!"author " <+: p) (h : PersonRead p y) :
      LineCut c p { c with author := some y }
  | committer (p : Bytes) (y : PersonInfo) (hw : b!"committer " <+: p) (h : PersonRead p y) :
      LineCut c p { c with committer := some y }
  | encoding (x : Bytes) : LineCut c (b!"encoding " ++ x) { c with encoding := some x }
  | mergetag (x : Bytes) (l : Link) (h : RefLink x l) :
      LineCut c (b!"mergetag object " ++ x) { c with mergetag := c.mergetag ++ [{ noTag with object := l }] }
  | other (p : Bytes) (h : ∀ w ∈ knownHeaders, ¬ w <+: p) :
      LineCut c p { c with other := c.other ++ [p] }

/-- What the last header item of a commit means, possibly cut short.

* A signature needs its closing line, but not the end of that line. A line of the
  signature that is cut to the text of the closing line counts as one.
* A merge tag may stop before the line that separates headers and message. -/
inductive CommitCut (c : Commit) (p : Bytes) : Commit → Prop
  | line (c' : Commit) (hp : LF ∉ p) (h : LineCut c p c') : CommitCut c p c'
  | sig (ls : List Bytes) (hne : ls ≠ []) (hl : ∀ l ∈ ls, LF ∉ l)
      (hp : p = unlines (sigBegin :: ls) ++ sigEnd) :
      CommitCut c p { c with signature := some (unlines ls) }
  | merge (x : Bytes) (ls : List Bytes) (last : Bytes) (t : Tag)
      (hl : ∀ l ∈ x :: last :: ls, LF ∉ l) (hs : ∀ l ∈ last :: ls, l ≠ b!" ")
      (hp : p = unlines ((b!"mergetag object " ++ x) :: ls) ++ last)
      (h : MergeMeans (x, ls ++ (if last = [] then [] else [last]), none) t) :
      CommitCut c p { c with mergetag := c.mergetag ++ [t] }

end Verif.Spec
