import Verif.Spec.Accept

/-!
# What may appear on standard output
-/

namespace Verif.Spec

/-- The keywords of a tag's header lines. -/
def tagWords : List Bytes := [b!"object ", b!"type ", b!"tag ", b!"tagger "]

/-- One line of text for every line without one of the keywords. -/
def unhandledText (ls : List Bytes) : Bytes :=
  (ls.filter fun l => tagWords.all fun w => !w.isPrefixOf l).flatMap fun l =>
    b!"unhandled line:  " ++ l ++ [LF]

/-- A header line that makes the tag invalid. -/
def BadTagLine (l : Bytes) : Prop :=
  (b!"object " <+: l ∧ ¬ ∃ y, RefLink (l.drop 7) y) ∨ (b!"tagger " <+: l ∧ ¬ ∃ p, PersonRead l p)

/-- `pre` are the lines before the first invalid one, or all of them. -/
def BeforeBad (ls pre : List Bytes) : Prop :=
  ∃ post, ls = pre ++ post ∧ (∀ l ∈ pre, ¬ BadTagLine l) ∧ ∀ l, post.head? = some l → BadTagLine l

end Verif.Spec
