import Verif.Proofs.Zlib
import Verif.Props.Delivery
import Verif.Props.Accept
import Verif.Props.Failing
import Verif.Model.Block

/-!
# Compressed objects: C96

`ParseCompressedObject` for every decompressor: any `io.Reader` that hands out the
decompressed bytes `pending r` and ends with `fin`, followed by the bytes `after`.
-/

namespace Verif.Props

open Verif Spec

variable {ρ : Type} [Source ρ] {inv : ρ → Prop} {pending : ρ → Bytes} {fin : Err} {eager : Prop}

theorem unpacks_start (r : ρ) (hr : inv r) (after : Stream) :
    Unpacks inv pending fin (pending r) after ⟨r, [], none, after⟩ :=
  ⟨hr, rfl, rfl, fun _ h => by cases h⟩

/-- An intact object is read as the bytes that were compressed. -/
theorem compressed_intact (D : Delivers ρ inv pending fin eager) (r : ρ) (hr : inv r) (after : Stream)
    (room : Nat → Nat) (hi : Intact fin (pending r) after.rest) (hf : ¬ EndsFull 4096 (pending r)) :
    parseZlib (.ok ⟨r, [], none, after⟩) room = parseObjectFromBuffer (pending r) := by
  have D' := zlib_delivers D (pending r) after
  rw [(zlibFin_eof fin (pending r) after).2 hi] at D'
  exact delivery_eof D' ⟨r, [], none, after⟩
    (unpacks_start (pending := pending) r hr after) 4096 (by omega) room hf

/-- Trees, commits and tags are only read from intact objects. -/
theorem compressed_checked (D : Delivers ρ inv pending fin eager) (r : ρ) (hr : inv r) (after : Stream)
    (room : Nat → Nat) (o : Obj) (h : parseZlib (.ok ⟨r, [], none, after⟩) room = .ok o) :
    Intact fin (pending r) after.rest ∨ ∃ b, o = .blob b := by
  have D' := zlib_delivers D (pending r) after
  by_cases hi : zlibFin fin (pending r) after = .eof
  · exact .inl ((zlibFin_eof fin (pending r) after).1 hi)
  · right
    have N : NeverEnds (Zlib ρ) (Unpacks inv pending fin (pending r) after) (fun z => pending z.flate) :=
      ⟨D'.stays, D'.size, D'.data, fun k s hk hs he => hi (D'.err k s _ hk hs he).1.symm⟩
    obtain ⟨d, content, rest, h1, _⟩ := read_failure_any N ⟨r, [], none, after⟩ (unpacks_start r hr after) 4096
      (by omega) room o h
    exact ⟨_, h1⟩

/-- What is read from any compressed object, intact or not, is what the decompressed
bytes are read as. -/
theorem compressed_sound (D : Delivers ρ inv pending fin eager) (r : ρ) (hr : inv r) (after : Stream)
    (room : Nat → Nat) (hf : ¬ EndsFull 4096 (pending r)) (o : Obj)
    (h : parseZlib (.ok ⟨r, [], none, after⟩) room = .ok o) : parseObjectFromBuffer (pending r) = .ok o := by
  by_cases hi : Intact fin (pending r) after.rest
  · rw [← compressed_intact D r hr after room hi hf, h]
  · have D' := zlib_delivers D (pending r) after
    have hs := delivery_error D' ⟨r, [], none, after⟩ (unpacks_start r hr after) 4096 (by omega) room hf o h
    rcases compressed_checked D r hr after room o h with h' | ⟨b, rfl⟩
    · exact absurd h' hi
    · obtain ⟨d, content, rest, h1, h2, h3⟩ := (blob_accepts _ _).1 hs
      exact (blob_accepts _ _).2 ⟨d, content, rest, h1, h2, h3⟩

/-- The checksum of a blob shorter than the buffer is not looked at, nor whether there
is one, nor whether decompression went to its end. -/
theorem compressed_unchecked (D : Delivers ρ inv pending fin eager) (r : ρ) (hr : inv r) (after : Stream)
    (room : Nat → Nat) (d content rest b : Bytes) (hd : SizeField d content.length)
    (hp : pending r = b!"blob " ++ d ++ NUL :: (content ++ rest)) (hb : Framed b!"blob" content b)
    (hs : content.length < 4096) : parseZlib (.ok ⟨r, [], none, after⟩) room = .ok (.blob b) := by
  have D' := zlib_delivers D (pending r) after
  have m : MatchAny (Unpacks inv pending fin (pending r) after) (fun z => pending z.flate)
      (zlibFin fin (pending r) after) eager (⟨[], none, ⟨r, [], none, after⟩, 4096, room⟩ : Bufio (Zlib ρ))
      ⟨pending r, zlibFin fin (pending r) after, 4096⟩ :=
    ⟨unpacks_start r hr after, rfl, rfl, rfl, by simp, by simp, by simp, by simp⟩
  generalize zlibFin fin (pending r) after = e at D' m
  have hp' : pending r = b!"blob" ++ SP :: (d ++ NUL :: (content ++ rest)) := by rw [hp]; simp
  show parseObject (⟨[], none, ⟨r, [], none, after⟩, 4096, room⟩ : Bufio (Zlib ρ)) = _
  generalize hz : (⟨[], none, ⟨r, [], none, after⟩, 4096, room⟩ : Bufio (Zlib ρ)) = z at m
  have h1 := bufio_string D' SP z _ m
  rw [show Reader.readString SP (⟨pending r, e, 4096⟩ : Stream) =
      .ok (b!"blob" ++ [SP], ⟨d ++ NUL :: (content ++ rest), e, 4096⟩) from by
    rw [hp']; exact Stream.readString_delim SP b!"blob" _ e 4096 (by decide)] at h1
  rcases h1.cases with ⟨x, z1, t1, h1, h2, m1⟩ | ⟨e', _, h2⟩ | ⟨_, h2⟩ <;> cases h2
  have h3 := bufio_string D' NUL z1 _ m1
  rw [show Reader.readString NUL (⟨d ++ NUL :: (content ++ rest), e, 4096⟩ : Stream) =
      .ok (d ++ [NUL], ⟨content ++ rest, e, 4096⟩) from Stream.readString_delim NUL d _ e 4096 hd.1] at h3
  rcases h3.cases with ⟨x, z2, t2, h3, h4, m2⟩ | ⟨e', _, h4⟩ | ⟨_, h4⟩ <;> cases h4
  have hz2 : z2.size = 4096 := by have := m2.size; exact this.symm
  obtain ⟨z3, h5⟩ := readLimited_short D' content.length (Bufio.calls z2) [] z2 _ m2 (Nat.le_refl _)
    (by simp only [List.length_nil]; omega) (by simp)
  simp only [List.length_nil, Nat.sub_zero, List.take_left, List.nil_append] at h5
  have hT : readType z = .ok (b!"blob", z1) := by
    unfold readType
    rw [h1]
    rfl
  have hN : readNum z1 = .ok ((content.length : Int), z2) := by
    unfold readNum
    rw [h3]
    simp only [Res.bind_ok, chop_concat]
    rw [(atoi_iff d content.length).2 ⟨hd.2.1, hd.2.2.1, hd.2.2.2⟩]
    rfl
  have hB : decodeBlob z1 = .ok b := by
    unfold decodeBlob
    rw [hN]
    simp only [Res.bind_ok]
    rw [if_neg (by omega)]
    simp only [Int.toNat_natCast]
    rw [show Reader.readLimited content.length z2 = .ok (content, z3) from h5]
    simp only [Res.bind_ok, ne_eq, not_true_eq_false, if_false]
    rw [framed_decimal hb]
    simp
  unfold parseObject
  rw [hT]
  simp only [Res.bind_ok]
  rw [hB]
  simp

/-! ### Cases -/

/-- The checksum of `tree 0` and a NUL. -/
example : adler32 b!"tree 0\x00" = [0x0a, 0x2c, 0x02, 0x01] := by decide +kernel

theorem patient_two (a b : Bytes) (e : Err) (g : Bool) : Patient ⟨[a, b], e, g⟩ := by
  intro pre cs h
  have : Script.empties cs ≤ cs.length := by
    clear h
    induction cs with
    | nil => simp [Script.empties]
    | cons c cs ih => cases c <;> simp [Script.empties]; exact ih
  have := congrArg List.length h
  simp at this
  omega

/-- An intact tree, in two pieces. -/
example : parseZlib (.ok ⟨(⟨[b!"tree", b!" 0\x00"], .eof, true⟩ : Script), [], none, ⟨[0x0a, 0x2c, 0x02, 0x01], .eof, 16⟩⟩)
    (fun _ => 511) = .ok (.tree ⟨[], []⟩) := by
  rw [compressed_intact (script_delivers .eof true) _ ⟨rfl, rfl, patient_two _ _ _ _⟩ _ _
    ⟨rfl, _, [], (List.append_nil _).symm, (adler_iff _ _).1 (by decide +kernel)⟩ (by
      rintro ⟨x, y, h, hl, -⟩
      have := congrArg List.length h
      simp at this
      omega)]
  decide +kernel

/-- With another checksum it is refused, and a blob is not. -/
example (o : Obj) : parseZlib (.ok ⟨(⟨[b!"tree", b!" 0\x00"], .eof, true⟩ : Script), [], none,
    ⟨[0, 0, 0, 0], .eof, 16⟩⟩) (fun _ => 511) ≠ .ok o := by
  intro h
  rcases compressed_checked (script_delivers .eof true) _ ⟨rfl, rfl, patient_two _ _ _ _⟩ _ _ o h with
    ⟨-, t, r, h1, h2⟩ | ⟨b, rfl⟩
  · have h3 := (adler_iff _ _).2 h2
    rw [h3, show adler32 _ = [0x0a, 0x2c, 0x02, 0x01] from by decide +kernel] at h1
    have := congrArg List.head? h1
    simp at this
  · have := compressed_sound (script_delivers .eof true) _ ⟨rfl, rfl, patient_two _ _ _ _⟩ _ _ (by
      rintro ⟨x, y, h, hl, -⟩
      have := congrArg List.length h
      simp at this
      omega) _ h
    revert this
    simp only [List.flatten_cons, List.flatten_nil]
    rw [show parseObjectFromBuffer (b!"tree" ++ (b!" 0\x00" ++ [])) = .ok (.tree ⟨[], []⟩) from by decide +kernel]
    intro h; cases h

example : parseZlib (.ok ⟨(⟨[b!"blob", b!" 2\x00hi"], .io 9, true⟩ : Script), [], none, ⟨[0, 0], .eof, 16⟩⟩)
    (fun _ => 511) = .ok (.blob b!"blob 2\x00hi") :=
  compressed_unchecked (script_delivers (.io 9) true) _ ⟨rfl, rfl, patient_two _ _ _ _⟩ _ _ b!"2" b!"hi" [] _
    ⟨by decide, ⟨b!"2", by decide, by simp [Digit], Or.inl ⟨rfl, by decide⟩⟩, by decide, by decide⟩ rfl
    ⟨b!"2", ⟨by decide, by simp [Digit], by decide, by decide⟩, by decide⟩ (by decide)

/-- A blob as long as the buffer can be refused for its checksum, if `bytes.Buffer` has
room for it. -/
theorem compressed_noticed : parseZlib (.ok ⟨(⟨[b!"blob 4096\x00", List.replicate 4096 0], .eof, true⟩ : Script), [], none,
    ⟨[0, 0, 0, 0], .eof, 16⟩⟩) (fun _ => 4095) = .err errChecksum := by decide +kernel

end Verif.Props
