/-!
# Bytes and Go results

Go `[]byte` and `string` values are `List UInt8`. A Go call yields a value, an
error value, or panics.
-/

namespace Verif

/-- Go `[]byte` / `string`. -/
abbrev Bytes := List UInt8

/-- `b!"text"` is the list of the UTF-8 bytes of the literal. -/
syntax:max "b!" noWs str : term

open Lean in
macro_rules
  | `(b!$s:str) => do
    let bytes := s.getString.toUTF8.toList
    let lits : Array Term ← bytes.toArray.mapM fun b =>
      pure (Syntax.mkNumLit (toString b.toNat) : Term)
    `(([$lits,*] : List UInt8))

/-- Errors that the modelled code can return. Texts are not modelled; the
constructors say where the error comes from. -/
inductive Err where
  | eof             -- io.EOF
  | unexpectedEof   -- io.ErrUnexpectedEOF
  | noProgress      -- io.ErrNoProgress
  | io (n : Nat)    -- any other error of the underlying reader or writer
  | atoi            -- strconv.Atoi: syntax or range
  | badHex          -- hex.DecodeString
  | badSha          -- shaToCid: wrong length
  | negSize         -- DecodeBlob: negative size
  | badType         -- unrecognized object type
  | badPerson       -- parsePersonInfo
  | badSig          -- decodeGpgSig
  | badPrefix       -- DecodeBlock: invalid CID prefix
  | repeatedKey     -- ipld.ErrRepeatedMapKey
  | invalidKey      -- ipld.ErrInvalidKey / schema.ErrNoSuchField
  | missingField    -- ipld.ErrMissingRequiredField
  | wrongKind       -- ipld.ErrWrongKind
  | notExists       -- datamodel.ErrNotExists
  | iterOver        -- ipld.ErrIteratorOverread
  | shortWrite      -- io.ErrShortWrite
  | fuel            -- never produced by the code: the model's recursion bound ran out
  deriving DecidableEq, Repr

/-- Result of a Go call. -/
inductive Res (α : Type) where
  | ok (a : α)
  | err (e : Err)
  | panic
  deriving DecidableEq, Repr

namespace Res

/-- Sequencing: an error or a panic ends the computation. -/
def bind {α β : Type} : Res α → (α → Res β) → Res β
  | .ok a, f => f a
  | .err e, _ => .err e
  | .panic, _ => .panic

instance : Monad Res where
  pure := .ok
  bind := Res.bind

@[simp] theorem pure_eq {α : Type} (a : α) : (pure a : Res α) = .ok a := rfl
@[simp] theorem bind_ok {α β : Type} (a : α) (f : α → Res β) : (Res.ok a >>= f) = f a := rfl
@[simp] theorem bind_err {α β : Type} (e : Err) (f : α → Res β) :
    ((Res.err e : Res α) >>= f) = .err e := rfl
@[simp] theorem bind_panic {α β : Type} (f : α → Res β) :
    ((Res.panic : Res α) >>= f) = .panic := rfl

/-- A bind succeeds exactly when both parts do. -/
theorem bind_eq_ok {α β : Type} {r : Res α} {f : α → Res β} {b : β} :
    (r >>= f) = .ok b ↔ ∃ a, r = .ok a ∧ f a = .ok b := by
  cases r <;> simp

theorem bind_eq_err {α β : Type} {r : Res α} {f : α → Res β} {e : Err} :
    (r >>= f) = .err e ↔ r = .err e ∨ ∃ a, r = .ok a ∧ f a = .err e := by
  cases r <;> simp

theorem bind_eq_panic {α β : Type} {r : Res α} {f : α → Res β} :
    (r >>= f) = .panic ↔ r = .panic ∨ ∃ a, r = .ok a ∧ f a = .panic := by
  cases r <;> simp

end Res

/-! ## Checked slicing and indexing (Go run-time panics) -/

/-- `b[n:]`; panics when `n > len(b)`. -/
def sliceFrom (b : Bytes) (n : Nat) : Res Bytes :=
  if n ≤ b.length then .ok (b.drop n) else .panic

/-- `b[:len(b)-1]`; panics when `b` is empty. -/
def chop (b : Bytes) : Res Bytes :=
  if b.length = 0 then .panic else .ok b.dropLast

/-- `b[0]`; panics when `b` is empty. -/
def first : Bytes → Res UInt8
  | [] => .panic
  | c :: _ => .ok c

/-- `b[len(b)-1]`; panics when `b` is empty. -/
def last (b : Bytes) : Res UInt8 :=
  match b.getLast? with
  | none => .panic
  | some c => .ok c

/-- `bytes.HasPrefix(b, p)` / `strings.HasPrefix(b, p)`. -/
def hasPrefix (b p : Bytes) : Bool := p.isPrefixOf b

/-! ## Byte constants used by the code -/

/-- `'\n'` -/
abbrev LF : UInt8 := 10
/-- `'\r'` -/
abbrev CR : UInt8 := 13
/-- `' '` -/
abbrev SP : UInt8 := 32
/-- `'<'` -/
abbrev LT : UInt8 := 60
/-- `'>'` -/
abbrev GT : UInt8 := 62
/-- `'\x00'` -/
abbrev NUL : UInt8 := 0

end Verif
