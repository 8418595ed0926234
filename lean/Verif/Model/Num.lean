import Verif.Basic

/-!
# Decimal numbers

`strconv.Atoi` (used by `readNullTerminatedNumber`, /repo/helper.go:45-53) and
the `%d` verb of `fmt` (used for the size headers, /repo/blob.go:22,
/repo/tree.go:96, /repo/commit.go:202, /repo/tag.go:186).
-/

namespace Verif

/-- `%d` of a non-negative int: canonical decimal digits.
The fuel argument bounds the number of digits. -/
def digitsAux : Nat → Nat → Bytes → Bytes
  | 0, _, acc => acc
  | fuel + 1, n, acc =>
    let acc := UInt8.ofNat (48 + n % 10) :: acc
    if n / 10 = 0 then acc else digitsAux fuel (n / 10) acc

/-- `fmt.Sprintf("%d", n)` for `n ≥ 0` (/repo/blob.go:22). -/
def decimal (n : Nat) : Bytes := digitsAux (n + 1) n []

/-- `'0' ≤ c ≤ '9'`. -/
def isDigit (c : UInt8) : Bool := 48 ≤ c && c ≤ 57

/-- Value of a digit string, most significant digit first; `none` if a byte is
not a digit (`strconv.ParseInt` base 10, loop over the bytes). -/
def parseDigits : Nat → Bytes → Option Nat
  | acc, [] => some acc
  | acc, c :: cs =>
    if isDigit c then parseDigits (acc * 10 + (c.toNat - 48)) cs else none

/-- Sign and digits of a number string (`strconv.ParseInt`, sign handling). -/
def signBody : Bytes → Bool × Bytes
  | [] => (false, [])
  | c :: cs =>
    if c = 43 then (false, cs)          -- '+'
    else if c = 45 then (true, cs)      -- '-'
    else (false, c :: cs)

/-- `strconv.Atoi` on a 64-bit platform: optional sign, at least one digit, no
other bytes, value within int64. (Called from /repo/helper.go:52.) -/
def atoi (s : Bytes) : Res Int :=
  if (signBody s).2 = [] then .err .atoi
  else match parseDigits 0 (signBody s).2 with
    | none => .err .atoi
    | some n =>
      if (signBody s).1 then
        if n ≤ 2 ^ 63 then .ok (-(n : Int)) else .err .atoi
      else
        if n < 2 ^ 63 then .ok (n : Int) else .err .atoi

end Verif
