import Verif.Model.Reader

/-!
# A last piece that comes whole

`bufio.Reader.ReadLine` hands out a line that fills the buffer without its last byte
if that is CR, and puts the CR back, in case an LF follows. It does not do so if the
reader has already reported the end of the stream. Then the last bytes of the stream
come as one line, CR included, although they fill the buffer.
-/

namespace Verif.Spec

/-- The stream ends with as many bytes as the buffer has, without LF, the last of
which is CR. -/
def EndsFull (N : Nat) (p : Bytes) : Prop :=
  ∃ x y, p = x ++ y ∧ y.length = N ∧ LF ∉ y ∧ y.getLast? = some CR

/-- A stream of which such an end comes as one line. -/
structure Whole where
  of : Stream

namespace Whole

def map {α : Type} (r : Res (α × Stream)) : Res (α × Whole) :=
  match r with
  | .ok (a, s) => .ok (a, ⟨s⟩)
  | .err e => .err e
  | .panic => .panic

def readLine (t : Whole) : Res (Bytes × Whole) :=
  if t.of.rest.length = t.of.bufsz ∧ LF ∉ t.of.rest ∧ t.of.rest.getLast? = some CR then
    .ok (t.of.rest, ⟨{ t.of with rest := [] }⟩)
  else map t.of.readLine

end Whole

instance : Reader Whole where
  readString d t := Whole.map (t.of.readString d)
  readLine := Whole.readLine
  readAll t := Whole.map t.of.readAll
  readFull n t := Whole.map (t.of.readFull n)
  readLimited n t := Whole.map (t.of.readLimited n)
  left t := t.of.rest.length

end Verif.Spec
