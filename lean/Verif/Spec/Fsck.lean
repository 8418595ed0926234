import Verif.Spec.GitRead
import Verif.Spec.Num

/-!
# What git fsck accepts

The checks of fsck.c of git that are errors: `fsck_ident`, `fsck_commit`,
`fsck_tag_standalone` and `verify_headers`. A NUL in the message of a commit,
which fsck warns of, is left out too.
-/

namespace Verif.Spec

open Verif

/-- The parts of a person as fsck reads them. Between the email and the date there
may be more than one space or tab; `gap` is what there is behind the first
space. -/
structure Ident where
  name : Bytes
  email : Bytes
  gap : Bytes
  date : Bytes
  tz : Bytes

/-- The text of the person. -/
def Ident.text (i : Ident) : Bytes :=
  i.name ++ b!" <" ++ i.email ++ b!"> " ++ i.gap ++ i.date ++ b!" " ++ i.tz

/-- fsck finds nothing wrong with the person. -/
structure Ident.Ok (i : Ident) : Prop where
  name : ∀ c ∈ i.name, c ≠ LT ∧ c ≠ GT ∧ c ≠ LF
  email : ∀ c ∈ i.email, c ≠ LT ∧ c ≠ GT ∧ c ≠ LF
  gap : ∀ c ∈ i.gap, c = SP ∨ c = 0x09
  date : ∃ n, Canonical i.date n ∧ n < 2 ^ 63
  tz : ∃ sign ds, i.tz = sign :: ds ∧ (sign = 43 ∨ sign = 45) ∧ ds.length = 4 ∧ ∀ c ∈ ds, Digit c

/-- fsck takes the text for a person. -/
def FsckIdent (x : Bytes) : Prop := ∃ i : Ident, i.Ok ∧ x = i.text

/-- The headers end with an empty line, or the last of them ends in LF. -/
def Terminated (body : Bytes) : Prop := [LF, LF] <:+: body ∨ body.getLast? = some LF

/-- fsck accepts the commit, which has this tree, these parents and the persons
`a` and `k`; `rest` follows them. -/
def FsckReads (body t : Bytes) (ps : List Bytes) (a k rest : Bytes) : Prop :=
  ∃ x hs, Ref x t ∧ Pairs Ref hs ps ∧ FsckIdent a ∧ FsckIdent k ∧
    body = b!"tree " ++ x ++ LF :: (parentLines hs ++
      (b!"author " ++ a ++ LF :: (b!"committer " ++ k ++ LF :: rest))) ∧
    NUL ∉ body ∧ Terminated body

/-- fsck accepts the tag, which has this object, type, name and tagger (`none` if it
has none, which fsck only remarks on); nothing or an empty line follows. -/
def FsckTag (body o ty name : Bytes) (tagger : Option Bytes) (msg : Option Bytes) : Prop :=
  ∃ x, Ref x o ∧ ty ∈ [b!"blob", b!"tree", b!"commit", b!"tag"] ∧ LF ∉ name ∧
    (∀ p, tagger = some p → FsckIdent p) ∧
    body = b!"object " ++ x ++ LF :: (b!"type " ++ ty ++ LF :: (b!"tag " ++ name ++ LF ::
      ((tagger.map fun p => b!"tagger " ++ p ++ [LF]).getD [] ++ messageText msg))) ∧
    NUL ∉ body ∧ Terminated body

end Verif.Spec
