import Verif.Model.Decode

/-!
# The decoders on other platforms

Go's `int` has 64 bits or 32, as the platform has. In the decoders a value from the
input becomes an `int` in one place, `strconv.Atoi` of the size
(/repo/helper.go:45-53). `half` is the number of non-negative values of `int`.
-/

namespace Verif

/-- `strconv.Atoi`. (Called from /repo/helper.go:52.) -/
def atoiOn (half : Nat) (s : Bytes) : Res Int :=
  if (signBody s).2 = [] then .err .atoi
  else match parseDigits 0 (signBody s).2 with
    | none => .err .atoi
    | some n =>
      if (signBody s).1 then
        if n ≤ half then .ok (-(n : Int)) else .err .atoi
      else
        if n < half then .ok (n : Int) else .err .atoi

variable {σ : Type} [Reader σ]

/-- `readNullTerminatedNumber`, /repo/helper.go:45-53. -/
def readNumOn (half : Nat) (s : σ) : Res (Int × σ) := do
  let (l, s) ← Reader.readString NUL s
  let l ← chop l
  let n ← atoiOn half l
  .ok (n, s)

/-- `DecodeBlob`, /repo/blob.go:13-44. -/
def decodeBlobOn (half : Nat) (s : σ) : Res Bytes := do
  let (sizen, s) ← readNumOn half s
  if sizen < 0 then .err .negSize
  else do
    let pre := b!"blob " ++ decimal sizen.toNat ++ [NUL]
    let (body, _) ← Reader.readLimited sizen.toNat s
    if body.length ≠ sizen.toNat then
      if body.length = 0 then .err .eof else .err .unexpectedEof
    else .ok (pre ++ body)

/-- `DecodeTree`, /repo/tree.go:14-44. -/
def decodeTreeOn (half : Nat) (s : σ) : Res Tree := do
  let (_, s) ← readNumOn half s
  treeLoop (Reader.left s + 1) { m := [], t := [] } s

/-- `DecodeCommit`, /repo/commit.go:19-43. -/
def decodeCommitOn (half : Nat) (s : σ) : Res Commit := do
  let (_, s) ← readNumOn half s
  commitLoop (Reader.left s + 1) Commit.zero s

/-- `ParseObject`, /repo/unmarshal.go:39-75. `DecodeTag` does not look at the size
(/repo/tag.go:21). -/
def parseObjectOn (half : Nat) (s : σ) : Res Obj := do
  let (typ, s) ← readType s
  if typ = b!"tree" then do
    let t ← decodeTreeOn half s
    .ok (.tree t)
  else if typ = b!"commit" then do
    let c ← decodeCommitOn half s
    .ok (.commit c)
  else if typ = b!"blob" then do
    let b ← decodeBlobOn half s
    .ok (.blob b)
  else if typ = b!"tag" then do
    let t ← decodeTag s
    .ok (.tag t)
  else .err .badType

end Verif
