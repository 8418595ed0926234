import Verif.Basic

/-!
# What a hexadecimal number is
-/

namespace Verif.Spec

/-- The byte `c` is a hexadecimal digit, of either case, with value `v`. -/
def HexDigit (c : UInt8) (v : Nat) : Prop :=
  b!"0123456789abcdef"[v]? = some c ∨ b!"0123456789ABCDEF"[v]? = some c

/-- The byte `c` is a lower-case hexadecimal digit with value `v`. -/
def LowerHexDigit (c : UInt8) (v : Nat) : Prop := b!"0123456789abcdef"[v]? = some c

/-- `h` writes the bytes `b` in hexadecimal, two digits per byte, high digit
first. -/
inductive HexOf : Bytes → Bytes → Prop where
  | nil : HexOf [] []
  | cons {c d : UInt8} {x y : Nat} {h b : Bytes} :
      HexDigit c x → HexDigit d y → HexOf h b → HexOf (c :: d :: h) (UInt8.ofNat (16 * x + y) :: b)

/-- The same with lower-case digits only. -/
inductive LowerHexOf : Bytes → Bytes → Prop where
  | nil : LowerHexOf [] []
  | cons {c d : UInt8} {x y : Nat} {h b : Bytes} :
      LowerHexDigit c x → LowerHexDigit d y → LowerHexOf h b →
      LowerHexOf (c :: d :: h) (UInt8.ofNat (16 * x + y) :: b)

end Verif.Spec
