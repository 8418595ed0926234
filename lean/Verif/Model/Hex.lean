import Verif.Basic

/-!
# Hexadecimal (`encoding/hex`)

`hex.DecodeString` is called from /repo/commit.go:48,60,88 and /repo/tag.go:39;
`hex.EncodeToString` from /repo/commit.go:174,176,184 and /repo/tag.go:167.
-/

namespace Verif

/-- Value of a hexadecimal digit, either case (`encoding/hex` reverse table). -/
def hexVal (c : UInt8) : Option Nat :=
  if 48 ≤ c && c ≤ 57 then some (c.toNat - 48)
  else if 97 ≤ c && c ≤ 102 then some (c.toNat - 87)
  else if 65 ≤ c && c ≤ 70 then some (c.toNat - 55)
  else none

/-- `hex.DecodeString`: pairs of digits; odd length or another byte is an error. -/
def hexDecode : Bytes → Res Bytes
  | [] => .ok []
  | [_] => .err .badHex
  | a :: b :: cs =>
    match hexVal a, hexVal b with
    | some x, some y =>
      match hexDecode cs with
      | .ok r => .ok (UInt8.ofNat (x * 16 + y) :: r)
      | .err e => .err e
      | .panic => .panic
    | _, _ => .err .badHex

/-- Lower-case digit for a value below 16. -/
def hexDigit (n : Nat) : UInt8 :=
  if n < 10 then UInt8.ofNat (48 + n) else UInt8.ofNat (87 + n)

/-- `hex.EncodeToString`: two lower-case digits per byte. -/
def hexEncode (b : Bytes) : Bytes :=
  b.flatMap fun c => [hexDigit (c.toNat / 16), hexDigit (c.toNat % 16)]

end Verif
