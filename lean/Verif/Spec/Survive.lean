import Verif.Spec.Objects

/-!
# Texts whose lines fit the reader's buffer
-/

namespace Verif.Spec

/-- No line of the text fills a buffer of size `N`: every run without LF is
shorter. -/
def ShortLines (N : Nat) (b : Bytes) : Prop := ∀ p l r, b = p ++ (l ++ r) → LF ∉ l → l.length < N

/-- The header of a commit, with the blank line behind it. -/
def commitHeader (c : Commit) (author committer : PersonInfo) : Bytes :=
  commitBody { c with message := [] } author committer

end Verif.Spec
