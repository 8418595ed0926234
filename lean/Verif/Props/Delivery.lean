import Verif.Proofs.Prompt
import Verif.Props.Chunks
import Verif.Spec.Survive

/-!
# Every reader: C23

`Chunks` says when the delivery of the bytes does not matter. Here: how far it can
matter at all.
-/

namespace Verif.Props

open Verif Spec

/-- Whatever the reader, there are at most three outcomes: that of the stream; if the
stream ends with a bufferful without LF that ends in CR, also that of the stream with
this end in one line; and if the reader reports an error other than EOF together with
data, a complete blob may be refused with this error. -/
theorem delivery_any {ρ : Type} [Source ρ] {inv : ρ → Prop} {pending : ρ → Bytes} {fin : Err} {eager : Prop}
    (D : Delivers ρ inv pending fin eager) (r : ρ) (hr : inv r) (size : Nat) (hs : 2 ≤ size) (room : Nat → Nat) :
    parseObject (newReader r size room) = parseObject (σ := Stream) ⟨pending r, fin, size⟩ ∨
    (eager ∧ EndsFull size (pending r) ∧
      parseObject (newReader r size room) = parseObject (Whole.mk ⟨pending r, fin, size⟩)) ∨
    (eager ∧ fin ≠ .eof ∧ parseObject (newReader r size room) = .err fin ∧
      ∃ b, parseObject (σ := Stream) ⟨pending r, fin, size⟩ = .ok (.blob b)) :=
  choice_parseObject (bufio_choice D) _ _
    ⟨⟨hr, rfl, rfl, rfl, by simp [newReader], by simp only [newReader]; omega, by simp [newReader], by simp [newReader]⟩, hs⟩

/-- Up to EOF, and unless the stream has this unusual end, the reader does not matter,
whether it reports EOF together with data or not. -/
theorem delivery_eof {ρ : Type} [Source ρ] {inv : ρ → Prop} {pending : ρ → Bytes} {eager : Prop}
    (D : Delivers ρ inv pending .eof eager) (r : ρ) (hr : inv r) (size : Nat) (hs : 2 ≤ size) (room : Nat → Nat)
    (hf : ¬ EndsFull size (pending r)) :
    parseObject (newReader r size room) = parseObject (σ := Stream) ⟨pending r, .eof, size⟩ := by
  rcases delivery_any D r hr size hs room with h | h | h
  · exact h
  · exact absurd h.2.1 hf
  · exact absurd rfl h.2.1

/-- The same for `Decode` with any assembler. -/
theorem delivery_eof_decode {ρ β : Type} [Source ρ] {inv : ρ → Prop} {pending : ρ → Bytes} {eager : Prop}
    (D : Delivers ρ inv pending .eof eager) (r : ρ) (hr : inv r) (size : Nat) (hs : 2 ≤ size) (room : Nat → Nat)
    (hf : ¬ EndsFull size (pending r)) (na : Sink β) :
    decode na (newReader r size room) = decode (σ := Stream) na ⟨pending r, .eof, size⟩ := by
  rw [decode_parse, decode_parse, delivery_eof D r hr size hs room hf]

/-- In particular if no line is as long as the buffer. -/
theorem endsFull_short {N : Nat} {b : Bytes} (h : ShortLines N b) : ¬ EndsFull N b := by
  rintro ⟨x, y, rfl, hl, hn, -⟩
  have := h x y [] (by simp) hn
  omega

/-- Or if the stream does not end in CR. -/
theorem endsFull_cr {N : Nat} {b : Bytes} (hN : 0 < N) (h : b.getLast? ≠ some CR) : ¬ EndsFull N b := by
  rintro ⟨x, y, rfl, hl, -, hc⟩
  exact getLast?_suffix h hc

/-- Two readers of the same bytes up to EOF, with EOF after or together with the last
of them, give the same node or the same error. -/
theorem delivery_two {ρ τ : Type} [Source ρ] [Source τ] {inv : ρ → Prop} {pending : ρ → Bytes} {eager : Prop}
    {inv' : τ → Prop} {pending' : τ → Bytes} {eager' : Prop}
    (D : Delivers ρ inv pending .eof eager) (D' : Delivers τ inv' pending' .eof eager')
    (r : ρ) (t : τ) (hr : inv r) (ht : inv' t) (hp : pending r = pending' t)
    (size : Nat) (hs : 2 ≤ size) (room room' : Nat → Nat) (hf : ¬ EndsFull size (pending r)) :
    parseObject (newReader r size room) = parseObject (newReader t size room') := by
  rw [delivery_eof D r hr size hs room hf, delivery_eof D' t ht size hs room' (hp ▸ hf), hp]

/-- An error other than EOF changes nothing either, but that it may take the place of
a blob. -/
theorem delivery_error {ρ : Type} [Source ρ] {inv : ρ → Prop} {pending : ρ → Bytes} {fin : Err} {eager : Prop}
    (D : Delivers ρ inv pending fin eager) (r : ρ) (hr : inv r) (size : Nat) (hs : 2 ≤ size) (room : Nat → Nat)
    (hf : ¬ EndsFull size (pending r)) (o : Obj) (h : parseObject (newReader r size room) = .ok o) :
    parseObject (σ := Stream) ⟨pending r, fin, size⟩ = .ok o := by
  rcases delivery_any D r hr size hs room with h' | h' | h'
  · rw [← h', h]
  · exact absurd h'.2.1 hf
  · rw [h'.2.2.1] at h
    cases h

/-- Over a reader that reports EOF together with the last bytes, the unusual end comes
in one line. -/
theorem delivery_prompt {ρ : Type} [Source ρ] {inv : ρ → Prop} {pending : ρ → Bytes} {eager : Prop}
    (D : Delivers ρ inv pending .eof eager) (P : Prompt ρ inv pending) (r : ρ) (hr : inv r) (size : Nat)
    (hs : 0 < size) (room : Nat → Nat) :
    parseObject (newReader r size room) = parseObject (Whole.mk ⟨pending r, .eof, size⟩) :=
  sim_parseObject (prompt_sim D P rfl) _ _
    ⟨⟨hr, rfl, rfl, rfl, by simp [newReader], hs, by simp [newReader], by simp [newReader]⟩,
      ⟨hr, by simp [newReader], hs, fun _ h => absurd rfl h⟩⟩

/-- One byte at a time. -/
def singles (p : Bytes) : Script := ⟨p.map fun c => [c], .eof, true⟩

theorem singles_empties (p : Bytes) : Script.empties (p.map fun c => [c]) = 0 := by
  cases p <;> rfl

theorem singles_delivers : Delivers Script (fun s => ∃ p, s = singles p) (fun s => s.chunks.flatten) .eof True where
  stays k s hk h := by
    obtain ⟨p, rfl⟩ := h
    cases p with
    | nil => exact ⟨[], rfl⟩
    | cons c p =>
      refine ⟨p, ?_⟩
      simp only [Source.read, Script.read, singles, List.map_cons]
      rw [if_pos (by simp; omega)]
  size k s hk h := by
    obtain ⟨p, rfl⟩ := h
    cases p with
    | nil => exact Nat.zero_le _
    | cons c p =>
      simp only [Source.read, Script.read, singles, List.map_cons]
      rw [if_pos (by simp; omega)]
      simp; omega
  data k s hk h := by
    obtain ⟨p, rfl⟩ := h
    cases p with
    | nil => rfl
    | cons c p =>
      simp only [Source.read, Script.read, singles, List.map_cons]
      rw [if_pos (by simp; omega)]
      rfl
  err k s x hk h hx := by
    obtain ⟨p, rfl⟩ := h
    cases p with
    | nil => cases hx; exact ⟨rfl, rfl⟩
    | cons c p =>
      revert hx
      simp only [Source.read, Script.read, singles, List.map_cons]
      rw [if_pos (by simp; omega)]
      cases p with
      | nil => intro hx; cases hx; exact ⟨rfl, rfl⟩
      | cons d p => intro hx; cases hx
  together _ _ _ _ _ _ _ := trivial
  progress k s hk h hx hn := by
    obtain ⟨p, rfl⟩ := h
    cases p with
    | nil => cases hx
    | cons c p =>
      revert hn
      simp only [Source.read, Script.read, singles, List.map_cons]
      rw [if_pos (by simp; omega)]
      intro hn
      cases hn
  idle s h := by
    obtain ⟨p, rfl⟩ := h
    show Script.empties (p.map fun c => [c]) < 100
    rw [singles_empties]
    decide
  left s _ := rfl

theorem singles_prompt : Prompt Script (fun s => ∃ p, s = singles p) (fun s => s.chunks.flatten) := by
  rintro k s hk ⟨p, rfl⟩ hx
  cases p with
  | nil => cases hx
  | cons c p =>
    revert hx
    simp only [Source.read, Script.read, singles, List.map_cons]
    rw [if_pos (by simp; omega)]
    cases p with
    | nil => intro hx; cases hx
    | cons d p => intro _ h; cases h

theorem singles_flatten (p : Bytes) : (singles p).chunks.flatten = p := by
  induction p with
  | nil => rfl
  | cons c p ih => exact congrArg (c :: ·) ih

/-- Exactly when the reader does not matter: when it makes no difference whether the
last bytes of the stream come in one line. -/
theorem delivery_matters (p : Bytes) (size : Nat) (hs : 2 ≤ size) :
    (∀ (ρ : Type) [Source ρ] (inv : ρ → Prop) (pending : ρ → Bytes) (eager : Prop),
      Delivers ρ inv pending .eof eager → ∀ r, inv r → pending r = p → ∀ room,
        parseObject (newReader r size room) = parseObject (σ := Stream) ⟨p, .eof, size⟩) ↔
    parseObject (Whole.mk ⟨p, .eof, size⟩) = parseObject (σ := Stream) ⟨p, .eof, size⟩ := by
  constructor
  · intro h
    rw [← h Script _ _ _ singles_delivers (singles p) ⟨p, rfl⟩ (singles_flatten p) (fun _ => 511),
      delivery_prompt singles_delivers singles_prompt (singles p) ⟨p, rfl⟩ size (by omega)]
    rw [singles_flatten]
  · intro h ρ _ inv pending eager D r hr hp room
    rcases delivery_any D r hr size hs room with h' | h' | h'
    · rw [h', hp]
    · rw [h'.2.2, hp, h]
    · exact absurd rfl h'.2.1

/-- The end may be in CR, with EOF delivered with it, read with the smallest buffer. -/
example : parseObject (newReader (⟨[b!"commit 0\x00tr", b!"\r"], .eof, true⟩ : Script) 16 (fun _ => 511)) =
    parseObject (newReader (⟨[b!"commit 0", b!"\x00tr\r"], .eof, false⟩ : Script) 16 (fun _ => 511)) :=
  delivery_two (script_delivers .eof true) (script_delivers .eof false) ⟨[b!"commit 0\x00tr", b!"\r"], .eof, true⟩
    ⟨[b!"commit 0", b!"\x00tr\r"], .eof, false⟩ ⟨rfl, rfl, patient_short _ (by simp)⟩
    ⟨rfl, rfl, patient_short _ (by simp)⟩ (by simp) 16 (by decide) (fun _ => 511) (fun _ => 511) (by
      rintro ⟨x, y, h, hl, -, -⟩
      have := congrArg List.length h
      simp at this
      omega)

/-- The second outcome is another one. -/
example : EndsFull 2 b!"commit 0\x00x\r" ∧
    parseObject (σ := Stream) ⟨b!"commit 0\x00x\r", .eof, 2⟩ ≠ parseObject (Whole.mk ⟨b!"commit 0\x00x\r", .eof, 2⟩) :=
  ⟨⟨b!"commit 0\x00", b!"x\r", by decide⟩, by decide⟩

end Verif.Props
