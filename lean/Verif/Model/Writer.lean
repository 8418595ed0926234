import Verif.Model.EncodeNode

/-!
# Writing an encoding to an `io.Writer`

A writer is a state machine: each `Write(p)` accepts the first `n ≤ len(p)` bytes
and returns `n` and possibly an error. `io.Writer` requires an error when
`n < len(p)`; writers that break this rule are included in the model.
-/

namespace Verif

/-- A writer with state `σ`: `write st len` is the number of bytes accepted of
`len` offered and the error returned. (What a writer does may depend on the
bytes as well; `write` gets them.) -/
structure Writer (σ : Type) where
  write : σ → Bytes → (Nat × Option Err) × σ
  le : ∀ st p, (write st p).1.1 ≤ p.length

/-- The rule of `io.Writer`: a short write comes with an error. -/
def Writer.Honest {σ : Type} (W : Writer σ) : Prop :=
  ∀ st p, (W.write st p).1.2 = none → (W.write st p).1.1 = p.length

/-- Outcome of an encoder's write phase: bytes accepted by the writer in total,
the error returned, the writer's state. -/
structure Written (σ : Type) where
  got : Bytes
  res : Option Err
  st : σ

variable {σ : Type}

/-- `_, err = w.Write(b); return err` (/repo/blob.go:52-53) and
`fmt.Fprintf(w, ...)`, which formats into a buffer and calls `w.Write` once,
returning its error (/repo/tree.go:96, /repo/commit.go:202, /repo/tag.go:186). -/
def writeOnce (W : Writer σ) (st : σ) (p : Bytes) : Written σ :=
  let r := W.write st p
  { got := p.take r.1.1, res := r.1.2, st := r.2 }

/-- `bytes.Buffer.WriteTo(w)`: nothing for an empty buffer, otherwise one `Write`
of all of it; a short write without error gives `io.ErrShortWrite`. -/
def writeTo (W : Writer σ) (st : σ) (body : Bytes) : Written σ :=
  if body.length = 0 then { got := [], res := none, st }
  else
    let r := writeOnce W st body
    match r.res with
    | some e => { r with res := some e }
    | none => if r.got.length < body.length then { r with res := some .shortWrite } else r

/-- The write phase of the encoders (/repo/blob.go:52-53, /repo/tree.go:95-101,
/repo/commit.go:202-208, /repo/tag.go:186-190). -/
def Out.writeWith (W : Writer σ) (st : σ) : Out → Written σ
  | .raw b => writeOnce W st b
  | .framed word body =>
    let h := writeOnce W st (word ++ [SP] ++ decimal body.length ++ [NUL])
    match h.res with
    | some _ => h
    | none =>
      let r := writeTo W h.st body
      { r with got := h.got ++ r.got }

/-- `Encode(n, w)`: nothing is written when the encoder fails before its write
phase. -/
def encodeTo (W : Writer σ) (st : σ) (n : Node) : Res (Written σ) :=
  match encode n with
  | .ok o => .ok (o.writeWith W st)
  | .err e => .ok { got := [], res := some e, st }
  | .panic => .panic

end Verif
