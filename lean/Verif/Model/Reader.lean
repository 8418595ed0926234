import Verif.Basic

/-!
# Buffered readers

The decoders use a `*bufio.Reader` through these operations only:
`ReadString` (/repo/unmarshal.go:15,42, /repo/helper.go:46, /repo/tag.go:21,
/repo/tree.go:48,54), `ReadLine` (/repo/commit.go:28,128,148,
/repo/tag.go:29,85,109), `io.ReadAll` (/repo/commit.go:113, /repo/tag.go:61),
`io.ReadFull` (/repo/tree.go:61) and `io.Copy` from a `LimitReader`
(/repo/blob.go:29).

On an error the callers drop the data and never use the reader again, so
an operation returns either data with the new reader state, or the error.
-/

namespace Verif

/-- Operations of a buffered reader with state `σ`. -/
class Reader (σ : Type) where
  /-- `ReadString(delim)`: data up to and including the delimiter. -/
  readString : UInt8 → σ → Res (Bytes × σ)
  /-- `ReadLine()`: the `isPrefix` result is ignored by every caller. -/
  readLine : σ → Res (Bytes × σ)
  /-- `io.ReadAll(rd)`. -/
  readAll : σ → Res (Bytes × σ)
  /-- `io.ReadFull(rd, buf)` with `len(buf) = n`. -/
  readFull : Nat → σ → Res (Bytes × σ)
  /-- `io.Copy(&buf, io.LimitReader(rd, n))`: the bytes appended to `buf`. -/
  readLimited : Nat → σ → Res (Bytes × σ)
  /-- Number of bytes still to come; only used to bound the model's recursion. -/
  left : σ → Nat

/-- Abstract reader: the bytes not yet consumed, the error delivered after
them (repeatedly, and with no data), and the size of the bufio buffer (4096 for
`bufio.NewReader`, or larger when the caller passes a `*bufio.Reader`). -/
structure Stream where
  rest : Bytes
  fin : Err
  bufsz : Nat
  deriving DecidableEq, Repr

/-- Split at the first occurrence of `d`: the part before and the part after. -/
def splitAt (d : UInt8) : Bytes → Option (Bytes × Bytes)
  | [] => none
  | c :: cs =>
    if c = d then some ([], cs)
    else match splitAt d cs with
      | some (a, b) => some (c :: a, b)
      | none => none

/-- Drop one trailing CR (`ReadLine` strips "\r\n" as well as "\n"). -/
def dropCR (l : Bytes) : Bytes :=
  if l.getLast? = some CR then l.dropLast else l

namespace Stream

/-- `bufio.Reader.ReadString`. -/
def readString (d : UInt8) (s : Stream) : Res (Bytes × Stream) :=
  match splitAt d s.rest with
  | some (a, b) => .ok (a ++ [d], { s with rest := b })
  | none => .err s.fin

/-- `bufio.Reader.ReadLine`. A line is ended by LF if the LF is within the first
`bufsz` bytes. Otherwise, if at least `bufsz` bytes remain, one buffer full is
returned as a fragment (leaving out a final CR, which is put back). Otherwise
the remaining bytes are the last line; the error that follows them is dropped. -/
def readLine (s : Stream) : Res (Bytes × Stream) :=
  match s.rest with
  | [] => .err s.fin
  | _ :: _ =>
    match splitAt LF (s.rest.take s.bufsz) with
    | some (a, _) => .ok (dropCR a, { s with rest := s.rest.drop (a.length + 1) })
    | none =>
      if s.bufsz ≤ s.rest.length then
        let f := s.rest.take s.bufsz
        if f.getLast? = some CR then
          .ok (f.dropLast, { s with rest := s.rest.drop (s.bufsz - 1) })
        else
          .ok (f, { s with rest := s.rest.drop s.bufsz })
      else
        .ok (s.rest, { s with rest := [] })

/-- `io.ReadAll`: EOF is success, any other error is returned. -/
def readAll (s : Stream) : Res (Bytes × Stream) :=
  if s.fin = .eof then .ok (s.rest, { s with rest := [] }) else .err s.fin

/-- `io.ReadFull`: EOF after some but not all bytes becomes
`io.ErrUnexpectedEOF`. -/
def readFull (n : Nat) (s : Stream) : Res (Bytes × Stream) :=
  if n ≤ s.rest.length then .ok (s.rest.take n, { s with rest := s.rest.drop n })
  else if s.fin = .eof then
    if s.rest = [] then .err .eof else .err .unexpectedEof
  else .err s.fin

/-- `io.Copy(&buf, io.LimitReader(rd, n))`: EOF, of the reader or of the limit,
is success. -/
def readLimited (n : Nat) (s : Stream) : Res (Bytes × Stream) :=
  if n ≤ s.rest.length then .ok (s.rest.take n, { s with rest := s.rest.drop n })
  else if s.fin = .eof then .ok (s.rest, { s with rest := [] })
  else .err s.fin

end Stream

instance : Reader Stream where
  readString := Stream.readString
  readLine := Stream.readLine
  readAll := Stream.readAll
  readFull := Stream.readFull
  readLimited := Stream.readLimited
  left s := s.rest.length

end Verif
