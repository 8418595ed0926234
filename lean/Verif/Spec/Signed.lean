import Verif.Spec.Objects

/-!
# Signed commits as git writes them

The signature of a commit is a header of several lines. Its value is the armoured
text that the signing program returned; git knows three formats (gpg-interface.c
of git).
-/

namespace Verif.Spec

/-- A header of several lines: a space stands before every line but the first. -/
def headerText (word v : Bytes) (vs : List Bytes) : Bytes := unlines ((word ++ SP :: v) :: vs.map (SP :: ·))

/-- The formats of signatures. -/
inductive SigFormat where
  | pgp
  | x509
  | ssh
  deriving DecidableEq

/-- What stands behind BEGIN and END. -/
def SigFormat.label : SigFormat → Bytes
  | .pgp => b!"PGP SIGNATURE"
  | .x509 => b!"SIGNED MESSAGE"
  | .ssh => b!"SSH SIGNATURE"

/-- The first line of the armour. -/
def SigFormat.first (f : SigFormat) : Bytes := b!"-----BEGIN " ++ f.label ++ b!"-----"

/-- The last line of the armour. -/
def SigFormat.last (f : SigFormat) : Bytes := b!"-----END " ++ f.label ++ b!"-----"

/-- A line of data in base64. -/
def Base64Line (l : Bytes) : Prop :=
  l ≠ [] ∧ ∀ c ∈ l, c ∈ b!"ABCDEFGHIJKLMNOPQRSTUVWXYZabcdefghijklmnopqrstuvwxyz0123456789+/="

/-- A header of PGP armour, `Key: value` (RFC 4880, 6.2). -/
def ArmourHeader (l : Bytes) : Prop :=
  ∃ k v, l = k ++ b!": " ++ v ∧ k ≠ [] ∧ ∀ c ∈ k, c ∈ b!"ABCDEFGHIJKLMNOPQRSTUVWXYZabcdefghijklmnopqrstuvwxyz"

/-- The lines between the first and the last. Only PGP has headers, and an empty
line behind them. -/
inductive Armour : SigFormat → List Bytes → Prop
  | pgp (hs bs : List Bytes) (hh : ∀ h ∈ hs, ArmourHeader h) (hb : ∀ b ∈ bs, Base64Line b) :
      Armour .pgp (hs ++ [] :: bs)
  | x509 (b : Bytes) (bs : List Bytes) (hb : ∀ x ∈ b :: bs, Base64Line x) : Armour .x509 (b :: bs)
  | ssh (b : Bytes) (bs : List Bytes) (hb : ∀ x ∈ b :: bs, Base64Line x) : Armour .ssh (b :: bs)

/-- The first of the lines is empty, or one of the two headers. -/
def PlainStart (ls : List Bytes) : Prop :=
  ∃ l, ls.head? = some l ∧ (l = [] ∨ b!"Version: " <+: l ∨ b!"Comment: " <+: l)

/-- The header with a signature. -/
def sigHeader (f : SigFormat) (ls : List Bytes) : Bytes := headerText b!"gpgsig" f.first (ls ++ [f.last])

/-- The text of the lines in the commit. -/
def sigLines (ls : List Bytes) : Bytes := unlines (ls.map (SP :: ·))

/-- The body of a commit with the headers `is`, the signature and the headers `js`. -/
def signedBody (is js : List Item) (sig msg : Bytes) : Bytes :=
  itemsText is ++ (sig ++ (itemsText js ++ LF :: msg))

end Verif.Spec
