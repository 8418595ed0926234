import Verif.Model.Decode

/-!
# Entry points of `/repo/helper.go`
-/

namespace Verif

/-- `uvarint` of go-cid, called by `Cid.Prefix`: value and number of bytes read.
An error counts as value 0 and 0 bytes read (the caller ignores it). `i` is the
index of the next byte, `x` the value so far. -/
def uvarintLoop : Nat → Nat → Bytes → Option (Nat × Nat)
  | _, _, [] => none
  | i, x, b :: bs =>
    if b.toNat < 128 then
      if i > 9 ∨ (i = 9 ∧ b.toNat > 1) then none
      else if b.toNat = 0 ∧ i > 0 then none
      else some (x + b.toNat * 128 ^ i, i + 1)
    else uvarintLoop (i + 1) (x + (b.toNat - 128) * 128 ^ i) bs

/-- `x, n, _ := uvarint(buf)`. -/
def uvarint (buf : Bytes) : Nat × Nat := (uvarintLoop 0 0 buf).getD (0, 0)

/-- `cid.Prefix`. -/
structure Prefix where
  version : Nat
  codec : Nat
  mhType : Nat
  mhLength : Nat
  deriving DecidableEq, Repr

/-- `Cid.Prefix()` of go-cid on the bytes of a CID: CIDv0 are the 34-byte strings
starting with 0x12 0x20; of all others the first four varints are read. -/
def cidPrefix (str : Bytes) : Prefix :=
  if str.length = 34 ∧ str[0]? = some 18 ∧ str[1]? = some 32 then
    { version := 0, codec := 0x70, mhType := 0x12, mhLength := 32 }
  else
    let (version, n) := uvarint str
    let str := str.drop n
    let (codec, n) := uvarint str
    let str := str.drop n
    let (mhType, n) := uvarint str
    let str := str.drop n
    let (mhLength, _) := uvarint str
    { version, codec, mhType, mhLength }

/-- `blocks.Block`: the bytes of its CID and its data. -/
structure Block where
  cid : Bytes
  data : Bytes

/-- `ParseObjectFromBuffer`, /repo/helper.go:41-43: a `bytes.Reader` ends with
EOF, `ParseObject` puts a buffer of 4096 bytes in front of it. -/
def parseObjectFromBuffer (b : Bytes) : Res Obj := parseObject (σ := Stream) ⟨b, .eof, 4096⟩

/-- `DecodeBlock`, /repo/helper.go:18-27. `mh.DefaultLengths[mh.SHA1]` is 20. -/
def decodeBlock (b : Block) : Res Obj :=
  let p := cidPrefix b.cid
  if p.codec ≠ gitRaw ∨ p.mhType ≠ mhSha1 ∨ p.mhLength ≠ 20 then .err .badPrefix
  else parseObjectFromBuffer b.data

/-- `ParseCompressedObject`, /repo/helper.go:30-38. Decompression is a parameter:
`zlib.NewReader` fails, or gives a reader of the decompressed bytes and the error
that ends them. -/
def parseCompressed {σ : Type} (zlib : σ → Res Stream) (s : σ) : Res Obj := do
  let rc ← zlib s
  parseObject rc

end Verif
