import Verif.Model.Decode
import Verif.Model.Bufio

/-!
# The memory `DecodeBlob` reserves

`DecodeBlob` collects the body in a `bytes.Buffer` (/repo/blob.go:22-27). Here the
buffer is modelled with its capacity, so that the arrays it reserves can be counted.
The growth is that of the standard library, `bytes.Buffer.grow` and `growSlice`:
reslice if there is room, 64 bytes for a small first write, otherwise an array of at
least `max (len + n) (2 * cap)` bytes; what the runtime makes of that size is `round`.
The read offset of the buffer is 0 throughout. The panic of a buffer whose size
overflows an `int` is not modelled.
-/

namespace Verif

/-- A `bytes.Buffer`: its contents, its capacity, and the sizes of the arrays it has
reserved so far, the last one first. -/
structure Buf where
  data : Bytes
  cap : Nat
  made : List Nat

namespace Buf

/-- `var buf bytes.Buffer`, /repo/blob.go:26. -/
def empty : Buf := ⟨[], 0, []⟩

/-- `buf.grow(n)`: room for another `n` bytes. -/
def grow (round : Nat → Nat) (n : Nat) (u : Buf) : Buf :=
  if u.data.length + n ≤ u.cap then u
  else if u.cap = 0 ∧ n ≤ 64 then { u with cap := 64, made := 64 :: u.made }
  else
    let c := round (max (u.data.length + n) (2 * u.cap))
    { u with cap := c, made := c :: u.made }

/-- `buf.WriteString(s)`, /repo/blob.go:27. -/
def write (round : Nat → Nat) (s : Bytes) (u : Buf) : Buf :=
  let u := u.grow round s.length
  { u with data := u.data ++ s }

variable {ρ : Type} [Source ρ]

/-- `buf.ReadFrom(io.LimitReader(rd, n))`, which is what `io.Copy` calls
(/repo/blob.go:29): before every read there is room for 512 bytes, and the read is
offered the whole room, but no more than what is left of `n`. -/
def readFrom (round : Nat → Nat) : Nat → Nat → Buf → Bufio ρ → Buf × Res (Bufio ρ)
  | 0, _, u, _ => (u, .err .fuel)
  | f + 1, n, u, b =>
    let u := u.grow round 512
    if n = 0 then (u, .ok b)
    else
      let r := Bufio.read (min (u.cap - u.data.length) n) b
      let u := { u with data := u.data ++ r.1.1 }
      match r.1.2 with
      | some e => if e = .eof then (u, .ok r.2) else (u, .err e)
      | none => readFrom round f (n - r.1.1.length) u r.2

end Buf

variable {ρ : Type} [Source ρ]

/-- `DecodeBlob`, /repo/blob.go:13-44, up to the final `na.AssignBytes`: the buffer it
leaves, and what it hands to the assembler. -/
def decodeBlobBuf (round : Nat → Nat) (b : Bufio ρ) : Buf × Res Bytes :=
  match readNum b with
  | .err e => (.empty, .err e)
  | .panic => (.empty, .panic)
  | .ok (sizen, b) =>
    if sizen < 0 then (.empty, .err .negSize)
    else
      let u := Buf.empty.write round (b!"blob " ++ decimal sizen.toNat ++ [NUL])
      let pre := u.data.length
      match u.readFrom round b.calls sizen.toNat b with
      | (u, .err e) => (u, .err e)
      | (u, .panic) => (u, .panic)
      | (u, .ok _) =>
        if u.data.length - pre ≠ sizen.toNat then
          if u.data.length - pre = 0 then (u, .err .eof) else (u, .err .unexpectedEof)
        else (u, .ok u.data)

end Verif
