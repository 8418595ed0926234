import Verif.Proofs.MemBuf
import Verif.Props.Chunks

/-!
# Lines are used only while the buffer still holds them: C55
-/

namespace Verif.Props

open Verif Spec

/-! ## C55 No line is looked at after the buffer was overwritten -/

/-- Whatever happens to a line's slice at the next read, the result is the one for
lines that are values: a slice is never looked at after a later read. -/
theorem slices_valid {σ : Type} [LineReader σ] (L : LawfulLines σ) (s : σ) :
    Alias.parseObject s = parseObject s := Alias.parseObject_eq L s

/-- The same for `Decode` with any assembler. -/
theorem slices_valid_decode {σ β : Type} [LineReader σ] (L : LawfulLines σ) (na : Sink β) (s : σ) :
    Alias.decode na s = decode na s := Alias.decode_eq L na s

/-- `bufio.Reader` with its memory is such a reader. -/
theorem memBuf_lawful {ρ : Type} [Source ρ] : LawfulLines (MemBuf ρ) := fun _ => rfl

/-- `bufio.NewReader(r)` with a buffer that holds `mem`. -/
def newMemBuf {ρ : Type} (r : ρ) (mem : Bytes) (room : Nat → Nat) (scribble : Bytes → Bytes) : MemBuf ρ :=
  ⟨mem, 0, 0, none, r, room, scribble⟩

theorem newMemBuf_rel {ρ : Type} [Source ρ] {inv : ρ → Prop} (r : ρ) (hr : inv r) (mem : Bytes) (hm : mem ≠ [])
    (room : Nat → Nat) (scribble : Bytes → Bytes) (hs : ∀ x, (scribble x).length = x.length) :
    MemRel inv (newMemBuf r mem room scribble) (newReader r mem.length room) :=
  ⟨hr, rfl, rfl, rfl, rfl, List.length_pos_iff.2 hm, Nat.le_refl _, Nat.zero_le _, rfl, hs⟩

/-- Decoding with slices from a real buffer, over any `io.Reader` that returns no
more than asked for, is decoding with values from a buffer without positions. -/
theorem slices_buffer {ρ : Type} [Source ρ] {inv : ρ → Prop} (F : Fits ρ inv) (r : ρ) (hr : inv r) (mem : Bytes)
    (hm : mem ≠ []) (room : Nat → Nat) (scribble : Bytes → Bytes) (hs : ∀ x, (scribble x).length = x.length) :
    Alias.parseObject (newMemBuf r mem room scribble) = parseObject (newReader r mem.length room) := by
  rw [slices_valid memBuf_lawful]
  exact sim_parseObject (memBuf_sim F) _ _ (newMemBuf_rel r hr mem hm room scribble hs)

/-- What the buffer held before, how the reader uses it as scratch space and how the
bytes arrive does not matter: the result is that of the abstract stream. -/
theorem slices_stream {ρ : Type} [Source ρ] {inv : ρ → Prop} {pending : ρ → Bytes} {fin : Err} {eager : Prop}
    (D : Delivers ρ inv pending fin eager) (r : ρ) (hr : inv r) (mem : Bytes) (hm : mem ≠ [])
    (room : Nat → Nat) (scribble : Bytes → Bytes) (hs : ∀ x, (scribble x).length = x.length)
    (he : eager → fin = .eof ∧ (pending r).getLast? ≠ some CR) :
    Alias.parseObject (newMemBuf r mem room scribble) =
      parseObject (σ := Stream) ⟨pending r, fin, mem.length⟩ := by
  rw [slices_buffer ⟨D.stays, D.size⟩ r hr mem hm room scribble hs]
  exact delivery_parse D r hr _ (List.length_pos_iff.2 hm) room he

/-- The memory that is left over, and the scratch space, cannot be seen. -/
theorem slices_no_leak {ρ : Type} [Source ρ] {inv : ρ → Prop} (F : Fits ρ inv) (r : ρ) (hr : inv r)
    (mem mem' : Bytes) (hm : mem ≠ []) (hl : mem.length = mem'.length) (room : Nat → Nat)
    (scribble scribble' : Bytes → Bytes) (hs : ∀ x, (scribble x).length = x.length)
    (hs' : ∀ x, (scribble' x).length = x.length) :
    Alias.parseObject (newMemBuf r mem room scribble) = Alias.parseObject (newMemBuf r mem' room scribble') := by
  have hm' : mem' ≠ [] := by
    intro h; rw [h] at hl; exact hm (List.eq_nil_of_length_eq_zero hl)
  rw [slices_buffer F r hr mem hm room scribble hs, slices_buffer F r hr mem' hm' room scribble' hs', hl]

/-- Two lines in two chunks through a buffer of four bytes: the slice of the first
shows another text after the second is read. -/
theorem stale_slice : ∃ (b b1 b2 : MemBuf Script) (l l2 : Slice), b.readSliceLine = .ok (l, b1) ∧
    b1.readSliceLine = .ok (l2, b2) ∧ b1.view l = b!"ab" ∧ b2.view l = b!"cd" :=
  ⟨newMemBuf ⟨[b!"ab\n", b!"cd\n"], .eof, false⟩ b!"...." (fun _ => 511) id,
   ⟨b!"ab\n.", 3, 3, none, ⟨[b!"cd\n"], .eof, false⟩, fun _ => 511, id⟩,
   ⟨b!"cd\n.", 3, 3, none, ⟨[], .eof, false⟩, fun _ => 511, id⟩,
   ⟨0, 2⟩, ⟨0, 2⟩, by rfl, by rfl, by decide, by decide⟩

/-- A tag read in small chunks through a buffer of sixteen bytes that is scribbled
over. -/
example : Alias.parseObject (newMemBuf (⟨[b!"tag 9\x00", b!"tag v1\nty", b!"pe commit\n\nhi"], .eof, true⟩ : Script)
      b!"garbage garbage " (fun _ => 511) (·.map fun _ => 63)) =
    .ok (.tag ⟨.nil, b!"commit", b!"v1", ⟨[], [], [], []⟩, b!"hi"⟩) := by
  rw [slices_stream (script_delivers .eof true) _ ⟨rfl, rfl, patient_short _ (by decide)⟩ _ (by decide) _ _
    (by simp) (by decide)]
  decide +kernel

end Verif.Props
