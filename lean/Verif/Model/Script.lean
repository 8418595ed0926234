import Verif.Model.Bufio

/-!
# Readers given by a list of chunks

Every way of delivering a finite stream: each `Read` returns the next chunk, or as
much of it as fits. Chunks may be empty. The final error comes after the last
chunk, or together with it when `eager` is set.
-/

namespace Verif

structure Script where
  chunks : List Bytes
  fin : Err
  eager : Bool

namespace Script

def read (k : Nat) (s : Script) : (Bytes × Option Err) × Script :=
  match s.chunks with
  | [] => (([], some s.fin), s)
  | c :: cs =>
    if c.length ≤ k then
      ((c, if cs = [] ∧ s.eager then some s.fin else none), { s with chunks := cs })
    else ((c.take k, none), { s with chunks := c.drop k :: cs })

/-- Number of empty chunks at the front. -/
def empties : List Bytes → Nat
  | [] :: cs => empties cs + 1
  | _ => 0

end Script

instance : Source Script where
  read := Script.read
  left s := s.chunks.flatten.length
  idle s := Script.empties s.chunks

/-- A reader that fails in the meantime: every `Read` returns the next chunk, or as
much of it as fits, and the error that goes with it, if any. After the last chunk
comes EOF. -/
structure Flaky where
  chunks : List (Bytes × Option Err)

namespace Flaky

def read (k : Nat) (s : Flaky) : (Bytes × Option Err) × Flaky :=
  match s.chunks with
  | [] => (([], some .eof), s)
  | (c, e) :: cs =>
    if c.length ≤ k then ((c, e), ⟨cs⟩) else ((c.take k, none), ⟨(c.drop k, e) :: cs⟩)

/-- The bytes that come before the first error. -/
def before : List (Bytes × Option Err) → Bytes
  | [] => []
  | (c, none) :: cs => c ++ before cs
  | (c, some _) :: _ => c

end Flaky

instance : Source Flaky where
  read := Flaky.read
  left s := (s.chunks.map (·.1)).flatten.length
  idle s := Script.empties (s.chunks.map (·.1))

end Verif
