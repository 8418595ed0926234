import Verif.Spec.Gen

/-!
# Specification: values that hold the same data

Values of the package that no client can tell apart by kinds and contents, though
their Go types may differ.
-/

namespace Verif.Spec

open Verif

/-- The text of the two types that hold text. -/
def text? : Own → Option Bytes
  | .string b | .gpgSig b => some b
  | _ => none

/-- The link of the three types that hold a link. -/
def link? : Own → Option Link
  | .link l | .treeLink l | .commitLink l => some l
  | _ => none

/-- The empty lists of the three list types. -/
def isEmptyList : Own → Bool
  | .linkList [] | .stringList [] | .tagList [] => true
  | _ => false

/-- Two values hold the same data. -/
def Alike (v w : Own) : Prop :=
  SameValue v w ∨
  (∃ b, text? v = some b ∧ text? w = some b) ∨
  (∃ l, link? v = some l ∧ link? w = some l) ∨
  (isEmptyList v = true ∧ isEmptyList w = true)

/-- A commit with all its optional fields. -/
def Full (c : Commit) : Prop :=
  c.author ≠ none ∧ c.committer ≠ none ∧ c.encoding ≠ none ∧ c.signature ≠ none

end Verif.Spec
