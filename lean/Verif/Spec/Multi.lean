import Verif.Spec.Objects

/-!
# Headers of several lines

In git a line of the header that begins with a space continues the header before
it (commit.c of git, `read_commit_extra_header_lines`, `find_commit_header`). A
header is then a list of lines, the first of which has the keyword.
-/

namespace Verif.Spec

open Verif

/-- The lines of a text. -/
def textLines : Bytes → List Bytes
  | [] => []
  | b :: r => if b = LF then [] :: textLines r else
      match textLines r with
      | [] => [[b]]
      | l :: ls => (b :: l) :: ls

/-- The header lines of an object: those before the first empty line. -/
def headLines (body : Bytes) : List Bytes := (textLines body).takeWhile (· ≠ [])

/-- A line that continues the header before it. -/
def Cont (l : Bytes) : Prop := l.head? = some SP

instance (l : Bytes) : Decidable (Cont l) := inferInstanceAs (Decidable (_ = _))

/-- The headers: each is a line with the lines that continue it. -/
def gitFields : List Bytes → List (List Bytes)
  | [] => []
  | l :: ls =>
    match gitFields ls with
    | [] => [[l]]
    | f :: fs => if ∃ n, ls.head? = some n ∧ Cont n then (l :: f) :: fs else [l] :: f :: fs

/-- The header begins with one of the keywords that have a meaning in a commit. -/
def knownField (f : List Bytes) : Bool := f.any fun l => some l = f.head? ∧ ∃ p ∈ knownHeaders, p <+: l

/-- The headers of a commit that have another keyword. -/
def unknownFields (body : Bytes) : List (List Bytes) := (gitFields (headLines body)).filter (!knownField ·)

/-- The unknown lines among the headers. -/
def otherLines (is : List Item) : List Bytes := is.filterMap fun
  | .other l => some l
  | _ => none

/-- The lines of every signature begin with a space, as git writes them. -/
def Indented (is : List Item) : Prop :=
  ∀ g, Item.sig g ∈ is → ∃ ls, g = unlines ls ∧ ∀ l ∈ ls, Cont l ∧ LF ∉ l

/-- Some header that the package knows is continued, behind the beginning of one
that it does not know. -/
def Misplaced (is : List Item) : Prop :=
  ∃ A l B k c D, is = A ++ .other l :: (B ++ k :: .other c :: D) ∧ ¬ Cont l ∧ Cont c ∧ ∀ x, k ≠ .other x

end Verif.Spec
