import Verif.Model.Decode
import Verif.Model.Bufio

/-!
# `ParseCompressedObject` and the checksum

`ParseCompressedObject` (/repo/helper.go:30-38) reads through the standard library's
zlib reader. Modelled here is how that reader ends: when the decompressor reports
EOF, it reads the four bytes that follow and compares them with the checksum of all
that was decompressed. Its verdict comes with the last bytes if the decompressor's
EOF did. Decompression itself is a parameter: any `io.Reader`.
-/

namespace Verif

/-- The sums of Adler-32 after `b`. -/
def adlerSums : Bytes → Nat × Nat → Nat × Nat
  | [], s => s
  | c :: b, (x, y) => adlerSums b ((x + c.toNat) % 65521, (y + (x + c.toNat) % 65521) % 65521)

/-- `adler32.New()`, `Write(b)`, `Sum32()`, as the four bytes that follow the
compressed data. -/
def adler32 (b : Bytes) : Bytes :=
  let s := adlerSums b (1, 0)
  [UInt8.ofNat (s.2 / 256), UInt8.ofNat s.2, UInt8.ofNat (s.1 / 256), UInt8.ofNat s.1]

/-- `zlib.ErrChecksum`, an error like any other to `ParseObject`. -/
def errChecksum : Err := .io 1

/-- State of a `zlib.reader`. -/
structure Zlib (ρ : Type) where
  /-- The decompressor `z.decompressor`. -/
  flate : ρ
  /-- All that was written to `z.digest`. -/
  seen : Bytes
  /-- `z.err`. -/
  err : Option Err
  /-- What is left in `z.r` behind the compressed data. -/
  after : Stream

/-- How reading ends if decompression ended with EOF. -/
def zlibEnd (seen : Bytes) (after : Stream) : Err :=
  match after.readFull 4 with
  | .ok (t, _) => if t = adler32 seen then .eof else errChecksum
  | .err .eof => .unexpectedEof
  | .err e => e
  | .panic => errChecksum

/-- `zlib.reader.Read`. -/
def Zlib.read {ρ : Type} [Source ρ] (k : Nat) (z : Zlib ρ) : (Bytes × Option Err) × Zlib ρ :=
  match z.err with
  | some e => (([], some e), z)
  | none =>
    let r := Source.read k z.flate
    let z := { z with flate := r.2, seen := z.seen ++ r.1.1 }
    match r.1.2 with
    | none => ((r.1.1, none), z)
    | some e =>
      let e := if e = .eof then zlibEnd z.seen z.after else e
      ((r.1.1, some e), { z with err := some e })

instance {ρ : Type} [Source ρ] : Source (Zlib ρ) where
  read := Zlib.read
  left z := if z.err = none then Source.left z.flate else 0
  idle z := if z.err = none then Source.idle z.flate else 0

/-- `ParseCompressedObject`, /repo/helper.go:30-38. `zlib.NewReader` fails, or gives a
reader. `ParseObject` puts a buffer of 4096 bytes in front of it; `room` is the free
space of growing slices, as in `Bufio`. -/
def parseZlib {ρ : Type} [Source ρ] (z : Res (Zlib ρ)) (room : Nat → Nat) : Res Obj := do
  let z ← z
  parseObject (⟨[], none, z, 4096, room⟩ : Bufio (Zlib ρ))

end Verif
