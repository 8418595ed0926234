import Verif.Model.Bufio

/-!
# What an `io.Reader` delivers

The contract of `io.Reader`: every `Read` returns the next bytes of the stream,
at most as many as asked for, possibly none; after the last byte it returns the
final error, and goes on returning it. The error may come together with the last
bytes if `eager` holds. There are never 100 fruitless reads in a row (`bufio` gives
up on those).
-/

namespace Verif.Spec

/-- In the states satisfying `inv`, which reads do not leave, the reader still has
`pending` to deliver, followed by the error `fin`. -/
structure Delivers (ρ : Type) [Source ρ] (inv : ρ → Prop) (pending : ρ → Bytes) (fin : Err) (eager : Prop) :
    Prop where
  stays : ∀ k s, 0 < k → inv s → inv (Source.read k s).2
  size : ∀ k s, 0 < k → inv s → (Source.read k s).1.1.length ≤ k
  data : ∀ k s, 0 < k → inv s → pending s = (Source.read k s).1.1 ++ pending (Source.read k s).2
  err : ∀ k s x, 0 < k → inv s → (Source.read k s).1.2 = some x → x = fin ∧ pending (Source.read k s).2 = []
  together : ∀ k s x, 0 < k → inv s → (Source.read k s).1.2 = some x → (Source.read k s).1.1 ≠ [] → eager
  progress : ∀ k s, 0 < k → inv s → (Source.read k s).1.2 = none → (Source.read k s).1.1 = [] →
    Source.idle (Source.read k s).2 < Source.idle s
  idle : ∀ s, inv s → Source.idle s < 100
  left : ∀ s, inv s → Source.left s = (pending s).length

/-- The final error always comes together with the last bytes: a read without error
leaves something to deliver. -/
def Prompt (ρ : Type) [Source ρ] (inv : ρ → Prop) (pending : ρ → Bytes) : Prop :=
  ∀ k s, 0 < k → inv s → (Source.read k s).1.2 = none → pending (Source.read k s).2 ≠ []

/-- In the states satisfying `inv`, which reads do not leave, reads hand out
`pending` and never report EOF: a reader that fails and goes on failing. -/
structure NeverEnds (ρ : Type) [Source ρ] (inv : ρ → Prop) (pending : ρ → Bytes) : Prop where
  stays : ∀ k s, 0 < k → inv s → inv (Source.read k s).2
  size : ∀ k s, 0 < k → inv s → (Source.read k s).1.1.length ≤ k
  data : ∀ k s, 0 < k → inv s → pending s = (Source.read k s).1.1 ++ pending (Source.read k s).2
  noEof : ∀ k s, 0 < k → inv s → (Source.read k s).1.2 ≠ some .eof

/-- As long as no error was returned, reads hand out `pending`, and the first error
is not EOF. Whatever may happen after it: the reader may go on with data, report
EOF, or fail again. -/
structure FailsFirst (ρ : Type) [Source ρ] (inv : ρ → Prop) (pending : ρ → Bytes) : Prop where
  stays : ∀ k s, 0 < k → inv s → (Source.read k s).1.2 = none → inv (Source.read k s).2 ∧
    pending s = (Source.read k s).1.1 ++ pending (Source.read k s).2
  size : ∀ k s, 0 < k → inv s → (Source.read k s).1.1.length ≤ k
  error : ∀ k s x, 0 < k → inv s → (Source.read k s).1.2 = some x → x ≠ .eof ∧ (Source.read k s).1.1 <+: pending s

/-- Reads hand out `pending`, then once report `fin`, and leave the reader in a state of
`after`, with `later` bytes still to come. -/
structure Lapses (ρ : Type) [Source ρ] (inv : ρ → Prop) (pending : ρ → Bytes) (fin : Err) (after : ρ → Prop)
    (later : Nat) : Prop where
  stays : ∀ k s, 0 < k → inv s → (Source.read k s).1.2 = none → inv (Source.read k s).2 ∧
    pending s = (Source.read k s).1.1 ++ pending (Source.read k s).2
  size : ∀ k s, 0 < k → inv s → (Source.read k s).1.1.length ≤ k
  error : ∀ k s x, 0 < k → inv s → (Source.read k s).1.2 = some x →
    x = fin ∧ (Source.read k s).1.1 = pending s ∧ after (Source.read k s).2
  progress : ∀ k s, 0 < k → inv s → (Source.read k s).1.2 = none → (Source.read k s).1.1 = [] →
    Source.idle (Source.read k s).2 < Source.idle s
  idle : ∀ s, inv s → Source.idle s < 100
  left : ∀ s, inv s → Source.left s = (pending s).length + later
  rest : ∀ s, after s → Source.left s = later ∧ Source.idle s < 100

/-- The reader hands out `pending`, fails once with `fin`, and then hands out `y` and
reports EOF, which comes with the last bytes only if `eager` holds. -/
structure FailsOnce (ρ : Type) [Source ρ] (inv : ρ → Prop) (pending : ρ → Bytes) (fin : Err) (inv' : ρ → Prop)
    (pending' : ρ → Bytes) (y : Bytes) (eager : Prop) : Prop where
  before : Lapses ρ inv pending fin (fun s => inv' s ∧ pending' s = y) y.length
  later : Delivers ρ inv' pending' .eof eager
  noEof : fin ≠ .eof
  noCR : eager → y.getLast? ≠ some CR

/-- Of the line `a`, which is broken off by a failing read, a reader with a buffer of `N`
bytes has `r` left when the failure comes: what is before was handed out in pieces of one
buffer full, less a CR at the end of the piece, which stays for the next one. -/
inductive Torn (N : Nat) : Bytes → Bytes → Prop where
  | rest {a : Bytes} (hne : a ≠ []) (hn : a.length < N) : Torn N a a
  | cut {f a r : Bytes} (hn : f.length = N) (hc : f.getLast? ≠ some CR) (h : Torn N a r) : Torn N (f ++ a) r
  | cutCR {f a r : Bytes} (hn : f.length + 1 = N) (hne : a ≠ []) (h : Torn N (CR :: a) r) :
    Torn N (f ++ CR :: a) r

/-- Of the line `a`, a reader with a buffer of `N` bytes has a full buffer left when the
failure comes, or one byte less and CR at the end. -/
inductive Brink (N : Nat) : Bytes → Prop where
  | full {a : Bytes} (hn : a.length = N) : Brink N a
  | cr {a : Bytes} (hn : a.length + 1 = N) (hc : a.getLast? = some CR) : Brink N a
  | cut {f a : Bytes} (hn : f.length = N) (hc : f.getLast? ≠ some CR) (h : Brink N a) : Brink N (f ++ a)
  | cutCR {f a : Bytes} (hn : f.length + 1 = N) (hne : a ≠ []) (h : Brink N (CR :: a)) : Brink N (f ++ CR :: a)

/-- `e` ends a line of which `r` is left to be read, and nothing is taken from `r`. -/
def LineEnd (N : Nat) (r e : Bytes) : Prop :=
  e = [LF] ∧ r.getLast? ≠ some CR ∨ e = [CR, LF] ∧ r.length + 1 < N

end Verif.Spec
