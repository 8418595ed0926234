import Verif.Basic

/-!
# What a decimal number is

Independent of how the code prints and parses numbers.
-/

namespace Verif.Spec

/-- The byte is one of `'0'`..`'9'`. -/
def Digit (c : UInt8) : Prop := 48 ≤ c.toNat ∧ c.toNat ≤ 57

/-- Value of a string of digits: the last digit counts 1, the one before 10, ... -/
def value : Bytes → Nat
  | [] => 0
  | c :: cs => (c.toNat - 48) * 10 ^ cs.length + value cs

/-- `s` is the canonical decimal notation of `n`: digits only, at least one, no
superfluous leading zero. -/
def Canonical (s : Bytes) (n : Nat) : Prop :=
  s ≠ [] ∧ (∀ c ∈ s, Digit c) ∧ (s.head? = some 48 → s.length = 1) ∧ value s = n

/-- `s` is a signed decimal notation of the integer `z`: an optional sign and at
least one digit, any number of leading zeros. -/
def Signed (s : Bytes) (z : Int) : Prop :=
  ∃ ds, ds ≠ [] ∧ (∀ c ∈ ds, Digit c) ∧
    ((s = ds ∧ z = value ds) ∨ (s = 43 :: ds ∧ z = value ds) ∨ (s = 45 :: ds ∧ z = -(value ds : Int)))

end Verif.Spec
