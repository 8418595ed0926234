import Verif.Spec.Objects

/-!
# Where git finds the signature of a tag

`parse_signature` in gpg-interface.c of git: the signature is the rest of the tag from
the last line that begins like one.
-/

namespace Verif.Spec

open Verif

/-- What signatures begin with (`openpgp_sigs`, `x509_sigs` and `ssh_sigs` in
gpg-interface.c). -/
def sigMarks : List Bytes :=
  [b!"-----BEGIN PGP SIGNATURE-----", b!"-----BEGIN PGP MESSAGE-----", b!"-----BEGIN SIGNED MESSAGE-----",
   b!"-----BEGIN SSH SIGNATURE-----"]

/-- The text begins like a signature. -/
def Marked (x : Bytes) : Prop := ∃ m ∈ sigMarks, m <+: x

/-- A signature: it begins like one, and no line of it after the first does. -/
def TagSig (s : Bytes) : Prop := Marked s ∧ ∀ a b, s = a ++ LF :: b → ¬ Marked b

/-- Git takes the tag apart into what was signed and the signature. -/
def GitTagSigned (body payload sig : Bytes) : Prop :=
  body = payload ++ sig ∧ (payload = [] ∨ payload.getLast? = some LF) ∧ TagSig sig

end Verif.Spec
