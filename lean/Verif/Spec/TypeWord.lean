import Verif.Spec.Accept

/-!
# Under another type word

A file whose first word has been changed: the same size, the same text.
-/

namespace Verif.Spec

/-- The header words of a tag. -/
def tagHeads : List Bytes := [b!"object ", b!"type ", b!"tag ", b!"tagger "]

/-- No line begins with one of the words. -/
def Without (ws : List Bytes) (ls : List Bytes) : Prop := ∀ w ∈ ws, ∀ l ∈ ls, ¬ w <+: l

/-- A file: type word, size, text. -/
def fileAs (word d body : Bytes) : Bytes := word ++ SP :: (d ++ NUL :: body)

/-- The block has no empty line: in what git writes all lines of a header but the first
begin with a space. -/
def Solid : Block → Prop
  | .line _ => True
  | .sig ls => [] ∉ ls
  | .merge _ ls _ => [] ∉ ls

end Verif.Spec
