import Verif.Model.Reader

/-!
# `bufio.Reader` over an `io.Reader`

The decoders read through a `*bufio.Reader` (/repo/unmarshal.go:13,40,
/repo/helper.go:45). This file models the standard library's implementation of
the operations used, over an arbitrary `io.Reader`, so that the abstract reader
of `Verif.Model.Reader` can be shown to describe it.

Simplified: the positions `r` and `w` in the buffer are left out, only the
unread bytes `buf[r:w]` are kept. (`fill` slides them to the front, `Read`
resets both positions on an empty buffer, and `ReadSlice` reports a full buffer
only if the unread bytes take up all of it.)
-/

namespace Verif

/-- An `io.Reader` with state `ρ`: `Read(p)` with `len(p) = k` returns data and
possibly an error. -/
class Source (ρ : Type) where
  read : Nat → ρ → (Bytes × Option Err) × ρ
  /-- Number of bytes still to come and of fruitless reads to come before the next
  byte; only used to bound the model's recursion. -/
  left : ρ → Nat
  idle : ρ → Nat

/-- State of a `bufio.Reader`. -/
structure Bufio (ρ : Type) where
  /-- Unread bytes, `b.buf[b.r:b.w]`. -/
  buf : Bytes
  /-- Pending error `b.err`. -/
  err : Option Err
  /-- Underlying reader `b.rd`. -/
  src : ρ
  /-- `len(b.buf)`. -/
  size : Nat
  /-- `io.ReadAll` and `bytes.Buffer.ReadFrom` read into the free space of a
  growing slice. Having `n` bytes, they ask for `room n + 1` bytes. -/
  room : Nat → Nat

namespace Bufio

variable {ρ : Type} [Source ρ]

/-- `fill`: read once, again if nothing came, at most `i` times. -/
def fill : Nat → Bufio ρ → Bufio ρ
  | 0, b => { b with err := some .noProgress }
  | i + 1, b =>
    let r := Source.read (b.size - b.buf.length) b.src
    let b' := { b with buf := b.buf ++ r.1.1, src := r.2 }
    match r.1.2 with
    | some e => { b' with err := some e }
    | none => if 0 < r.1.1.length then b' else fill i b'

/-- How `ReadSlice` ends: `err == nil`, another error, or `ErrBufferFull`. -/
inductive End where
  | found
  | err (e : Err)
  | full

/-- `ReadSlice(delim)`. -/
def readSlice (d : UInt8) : Nat → Bufio ρ → Res ((Bytes × End) × Bufio ρ)
  | 0, _ => .err .fuel
  | f + 1, b =>
    match splitAt d b.buf with
    | some (x, y) => .ok ((x ++ [d], .found), { b with buf := y })
    | none =>
      match b.err with
      | some e => .ok ((b.buf, .err e), { b with buf := [], err := none })
      | none =>
        if b.size ≤ b.buf.length then .ok ((b.buf, .full), { b with buf := [] })
        else readSlice d f (fill 100 b)

/-- `ReadLine()`. Putting the CR back (`b.r--`) after the buffer was used up
leaves exactly the CR unread. -/
def readLine (b : Bufio ρ) : Res (Bytes × Bufio ρ) := do
  let ((line, e), b) ← readSlice LF (b.size + 2) b
  match e with
  | .full =>
    if line.getLast? = some CR then .ok (line.dropLast, { b with buf := CR :: b.buf })
    else .ok (line, b)
  | .err e => if line.length = 0 then .err e else .ok (line, b)
  | .found =>
    if line.getLast? = some LF then
      if 1 < line.length ∧ line.dropLast.getLast? = some CR then .ok (line.dropLast.dropLast, b)
      else .ok (line.dropLast, b)
    else .ok (line, b)

/-- `ReadString(delim)`: `collectFragments` gathers full buffers. -/
def readString (d : UInt8) : Nat → Bytes → Bufio ρ → Res (Bytes × Bufio ρ)
  | 0, _, _ => .err .fuel
  | f + 1, acc, b => do
    let ((frag, e), b) ← readSlice d (b.size + 2) b
    match e with
    | .found => .ok (acc ++ frag, b)
    | .err e => .err e
    | .full => readString d f (acc ++ frag) b

/-- `Read(p)` with `len(p) = k > 0`. -/
def read (k : Nat) (b : Bufio ρ) : (Bytes × Option Err) × Bufio ρ :=
  if b.buf = [] then
    match b.err with
    | some e => (([], some e), { b with err := none })
    | none =>
      if b.size ≤ k then
        let r := Source.read k b.src
        (r.1, { b with src := r.2 })
      else
        let r := Source.read b.size b.src
        if r.1.1 = [] then (([], r.1.2), { b with src := r.2 })
        else ((r.1.1.take k, none), { b with buf := r.1.1.drop k, src := r.2, err := r.1.2 })
  else ((b.buf.take k, none), { b with buf := b.buf.drop k })

/-- `io.ReadAll`. -/
def readAll : Nat → Bytes → Bufio ρ → Res (Bytes × Bufio ρ)
  | 0, _, _ => .err .fuel
  | f + 1, acc, b =>
    let r := read (b.room acc.length + 1) b
    match r.1.2 with
    | some e => if e = .eof then .ok (acc ++ r.1.1, r.2) else .err e
    | none => readAll f (acc ++ r.1.1) r.2

/-- `io.ReadFull` (`io.ReadAtLeast`). -/
def readFull (n : Nat) : Nat → Bytes → Bufio ρ → Res (Bytes × Bufio ρ)
  | 0, _, _ => .err .fuel
  | f + 1, acc, b =>
    if n ≤ acc.length then .ok (acc, b)
    else
      let r := read (n - acc.length) b
      let acc' := acc ++ r.1.1
      match r.1.2 with
      | some e =>
        if n ≤ acc'.length then .ok (acc', r.2)
        else if 0 < acc'.length ∧ e = .eof then .err .unexpectedEof
        else .err e
      | none => readFull n f acc' r.2

/-- `io.Copy(&buf, io.LimitReader(rd, n))`: `bytes.Buffer.ReadFrom` on the
`LimitedReader`. -/
def readLimited (n : Nat) : Nat → Bytes → Bufio ρ → Res (Bytes × Bufio ρ)
  | 0, _, _ => .err .fuel
  | f + 1, acc, b =>
    if n ≤ acc.length then .ok (acc, b)
    else
      let r := read (min (b.room acc.length + 1) (n - acc.length)) b
      match r.1.2 with
      | some e => if e = .eof then .ok (acc ++ r.1.1, r.2) else .err e
      | none => readLimited n f (acc ++ r.1.1) r.2

/-- Bytes still to come. -/
def left (b : Bufio ρ) : Nat := b.buf.length + Source.left b.src

/-- Bound on the number of `Read` calls that can still return without error. -/
def calls (b : Bufio ρ) : Nat := left b * 100 + Source.idle b.src + 2

end Bufio

instance {ρ : Type} [Source ρ] : Reader (Bufio ρ) where
  readString d b := Bufio.readString d (b.left + 2) [] b
  readLine := Bufio.readLine
  readAll b := Bufio.readAll b.calls [] b
  readFull n b := Bufio.readFull n b.calls [] b
  readLimited n b := Bufio.readLimited n b.calls [] b
  left := Bufio.left

end Verif
