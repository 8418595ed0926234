import Verif.Proofs.Reserve
import Verif.Props.Chunks

/-!
# C90: the announced size of a blob reserves no memory
-/

namespace Verif.Props

open Verif Spec

/-- Collecting the body in a growing buffer gives what `decodeBlob` says, for some
amounts of room offered to the reads. Whatever the source does. -/
theorem blob_buffer {ρ : Type} [Source ρ] {round : Nat → Nat} (S : Sizes round) (b : Bufio ρ) :
    ∃ room : Nat → Nat, (decodeBlobBuf round b).2 = decodeBlob { b with room := room } := by
  cases h : readNum b with
  | err e =>
    refine ⟨b.room, ?_⟩
    unfold decodeBlobBuf decodeBlob
    rw [h]; rfl
  | panic =>
    refine ⟨b.room, ?_⟩
    unfold decodeBlobBuf decodeBlob
    rw [h]; rfl
  | ok p =>
    obtain ⟨sizen, b'⟩ := p
    by_cases hneg : sizen < 0
    · refine ⟨b.room, ?_⟩
      unfold decodeBlobBuf decodeBlob
      rw [h]
      simp only [Res.bind_ok]
      rw [if_pos hneg, if_pos hneg]
    · let pre := b!"blob " ++ decimal sizen.toNat ++ [NUL]
      let u := Buf.empty.write round pre
      have hu : u.data = pre ++ [] := by
        show (Buf.grow round pre.length Buf.empty).data ++ pre = _
        rw [grow_data]; simp [Buf.empty]
      have h0 : u.cap ≠ 0 := by
        have := grow_room S pre.length Buf.empty (fun _ => rfl)
        have h1 : 0 < pre.length := by simp [pre]
        show (Buf.grow round pre.length Buf.empty).cap ≠ 0
        omega
      obtain ⟨room, -, ⟨more, hm⟩, hl⟩ := readFrom_room S pre sizen.toNat b'.calls [] u b' hu h0
      refine ⟨room, ?_⟩
      unfold decodeBlobBuf decodeBlob
      have hnum : readNum ({ b with room := room } : Bufio ρ) = .ok (sizen, b'.offer room) := by
        have := readNum_offer room b
        rw [h] at this
        exact this
      rw [h, hnum]
      simp only [Res.bind_ok]
      rw [if_neg hneg, if_neg hneg]
      show _ = (Bufio.readLimited sizen.toNat b'.calls [] (b'.offer room) >>= _)
      rw [hl]
      rw [List.length_nil, Nat.sub_zero, List.append_nil] at *
      show (match u.readFrom round b'.calls sizen.toNat b' with
        | (u, .err e) => (u, .err e)
        | (u, .panic) => (u, .panic)
        | (u', .ok _) =>
          if u'.data.length - u.data.length ≠ sizen.toNat then
            if u'.data.length - u.data.length = 0 then (u', .err .eof) else (u', .err .unexpectedEof)
          else (u', .ok u'.data) : Buf × Res Bytes).2 = _
      rw [hu]
      generalize u.readFrom round b'.calls sizen.toNat b' = q at *
      obtain ⟨v, r⟩ := q
      cases r with
      | err e => rfl
      | panic => rfl
      | ok b'' =>
        simp only [Res.bind_ok] at hm ⊢
        rw [hm]
        have hlen : (pre ++ more).length - pre.length = more.length := by
          rw [List.length_append]; omega
        rw [hlen, List.drop_left]
        by_cases hc : more.length ≠ sizen.toNat
        · rw [if_pos hc, if_pos hc]
          by_cases h00 : more.length = 0
          · rw [if_pos h00, if_pos h00]
          · rw [if_neg h00, if_neg h00]
        · rw [if_neg hc, if_neg hc]

theorem decodeBlobBuf_eq {ρ : Type} [Source ρ] (round : Nat → Nat) (b : Bufio ρ) :
    (decodeBlobBuf round b).1 = Buf.empty ∨
    ∃ n b', readNum b = .ok (n, b') ∧ (decodeBlobBuf round b).1 =
      ((Buf.empty.write round (b!"blob " ++ decimal n.toNat ++ [NUL])).readFrom round b'.calls n.toNat b').1 := by
  unfold decodeBlobBuf
  cases h : readNum b with
  | err e => exact .inl rfl
  | panic => exact .inl rfl
  | ok p =>
    obtain ⟨n, b'⟩ := p
    simp only
    split
    · exact .inl rfl
    · refine .inr ⟨n, b', rfl, ?_⟩
      split
      · rename_i h; rw [h]
      · rename_i h; rw [h]
      · rename_i h
        rw [h]
        split
        · split <;> rfl
        · rfl

/-- Whatever size is announced and whatever the source does: no array `DecodeBlob`
reserves is larger than four times what it has collected, plus 2048 bytes, and all of
them together are at most twice that. -/
theorem blob_memory {ρ : Type} [Source ρ] {round : Nat → Nat} (S : Sizes round) (b : Bufio ρ) :
    (∀ a ∈ (decodeBlobBuf round b).1.made, a ≤ 4 * (decodeBlobBuf round b).1.data.length + 2048) ∧
    (decodeBlobBuf round b).1.made.sum ≤ 8 * (decodeBlobBuf round b).1.data.length + 4096 := by
  rcases decodeBlobBuf_eq round b with h | ⟨n, b', h1, h2⟩
  · rw [h]; simp [Buf.empty]
  · have hd := readNum_range b n b' h1
    have hl := decimal_short n.toNat (by omega)
    have m := modest_readFrom S b'.calls n.toNat _ b'
      (modest_write S (b!"blob " ++ decimal n.toNat ++ [NUL]) (by
        simp only [List.length_append, List.length_cons, List.length_nil]; omega))
    rw [← h2] at m
    generalize (decodeBlobBuf round b).1 = v at m ⊢
    clear hd hl h1 h2
    exact ⟨fun a ha => Nat.le_trans (m.each a ha) (by omega), by have := m.all; have := m.last; omega⟩

section

variable {ρ : Type} [Source ρ] {inv : ρ → Prop} {pending : ρ → Bytes} {fin : Err} {eager : Prop}

theorem readFrom_length {round : Nat → Nat} (S : Sizes round) (D : Delivers ρ inv pending fin eager) (f n : Nat)
    (u : Buf) (h0 : u.cap ≠ 0) (b : Bufio ρ) (s : Stream) (m : MatchAny inv pending fin eager b s) :
    (u.readFrom round f n b).1.data.length ≤ u.data.length + s.rest.length := by
  induction f generalizing n u b s with
  | zero => simp [Buf.readFrom]
  | succ f ih =>
    have hg := grow_room S 512 u (fun h => absurd h h0)
    have hd := grow_data round 512 u
    unfold Buf.readFrom
    simp only
    split
    · rw [hd]; omega
    · obtain ⟨x, r, h1, h2, h3, m', h4⟩ :=
        read_match D (min ((u.grow round 512).cap - (u.grow round 512).data.length) n) (by rw [hd]; omega) b s m
      rw [h1, hd] at *
      have hlen := congrArg List.length h2
      rw [List.length_append] at hlen
      split
      · split <;> simp only [List.length_append] <;> omega
      · have := ih (n - x.length) { u.grow round 512 with data := u.data ++ x } (by simp only; omega) _ _ m'
        simp only [List.length_append] at this
        omega

/-- A stream of `L` bytes, however it is delivered, makes `DecodeBlob` reserve no array
larger than `4 * L + 2148` bytes, and no more than `8 * L + 4296` bytes altogether,
whatever size it announces. And what is decoded is what the stream holds. -/
theorem blob_memory_stream {round : Nat → Nat} (S : Sizes round) (D : Delivers ρ inv pending fin eager)
    (r : ρ) (hr : inv r) (size : Nat) (hs : 0 < size) (room : Nat → Nat) :
    (∀ a ∈ (decodeBlobBuf round (newReader r size room)).1.made, a ≤ 4 * (pending r).length + 2148) ∧
    (decodeBlobBuf round (newReader r size room)).1.made.sum ≤ 8 * (pending r).length + 4296 ∧
    ((eager → fin = .eof ∧ (pending r).getLast? ≠ some CR) →
      (decodeBlobBuf round (newReader r size room)).2 = decodeBlob (σ := Stream) ⟨pending r, fin, size⟩) := by
  have m : MatchAny inv pending fin eager (newReader r size room) ⟨pending r, fin, size⟩ :=
    ⟨hr, rfl, rfl, rfl, by simp [newReader], hs, by simp [newReader], by simp [newReader]⟩
  obtain ⟨h1, h2⟩ := blob_memory S (newReader r size room)
  have h3 : (decodeBlobBuf round (newReader r size room)).1.data.length ≤ 25 + (pending r).length := by
    rcases decodeBlobBuf_eq round (newReader r size room) with h | ⟨n, b', h4, h5⟩
    · rw [h]; simp [Buf.empty]
    · have hd := readNum_range _ n b' h4
      have hl := decimal_short n.toNat (by omega)
      have hstr := bufio_string D NUL (newReader r size room) ⟨pending r, fin, size⟩ m
      have hm : ∃ s : Stream, MatchAny inv pending fin eager b' s ∧ s.rest.length ≤ (pending r).length := by
        unfold readNum at h4
        rcases hstr.cases with ⟨x, u, t, hx, ht, h'⟩ | ⟨e, hx, -⟩ | ⟨hx, -⟩
        · rw [hx] at h4
          simp only [Res.bind_ok] at h4
          cases hc : chop x with
          | err e => rw [hc] at h4; cases h4
          | panic => rw [hc] at h4; cases h4
          | ok l =>
            rw [hc] at h4
            simp only [Res.bind_ok] at h4
            cases ha : atoi l with
            | err e => rw [ha] at h4; cases h4
            | panic => rw [ha] at h4; cases h4
            | ok z =>
              rw [ha] at h4
              cases h4
              exact ⟨t, h', (string_suffix NUL _ _ _ ht).length_le⟩
        · rw [hx] at h4; cases h4
        · rw [hx] at h4; cases h4
      obtain ⟨s, hm, hlen⟩ := hm
      have hcap : (Buf.empty.write round (b!"blob " ++ decimal n.toNat ++ [NUL])).cap ≠ 0 := by
        have := grow_room S (b!"blob " ++ decimal n.toNat ++ [NUL]).length Buf.empty (fun _ => rfl)
        have h1 : 0 < (b!"blob " ++ decimal n.toNat ++ [NUL]).length := by simp
        show (Buf.grow round (b!"blob " ++ decimal n.toNat ++ [NUL]).length Buf.empty).cap ≠ 0
        omega
      have hdat : (Buf.empty.write round (b!"blob " ++ decimal n.toNat ++ [NUL])).data.length ≤ 25 := by
        show ((Buf.grow round _ Buf.empty).data ++ _).length ≤ 25
        rw [grow_data]
        simp only [Buf.empty, List.length_append, List.length_cons, List.length_nil]
        omega
      rw [h5]
      have := readFrom_length S D b'.calls n.toNat _ hcap b' s hm
      omega
  refine ⟨fun a ha => by have := h1 a ha; omega, by omega, fun he => ?_⟩
  obtain ⟨room', h⟩ := blob_buffer S (newReader r size room)
  rw [h]
  exact sim_decodeBlob (bufio_sim D) _ _ (newReader_match r hr size hs room' he)

end

/-! A runtime that gives exactly what is asked for... -/

theorem sizes_exact : Sizes (fun c => c) := ⟨fun _ => Nat.le_refl _, fun _ _ => by omega⟩

/-- ...or multiples of 512. -/
theorem sizes_pages : Sizes (fun c => (c + 511) / 512 * 512) :=
  ⟨fun c => by omega, fun c h => by omega⟩

/-- A terabyte is announced, three bytes come: 64 bytes are reserved for the header and
531, then 1062, for the body. -/
example :
    let out := decodeBlobBuf (fun c => c)
      (newReader (⟨[b!"1099511627776\x00a", b!"bc"], .eof, false⟩ : Script) 16 (fun _ => 0))
    out.1.data = b!"blob 1099511627776\x00abc" ∧ out.1.made = [1062, 531, 64] ∧ out.2 = .err .unexpectedEof := by
  decide +kernel

/-- The theorem about streams applies to it: twenty bytes of input, no array above 2228. -/
example : ∀ a ∈ (decodeBlobBuf (fun c => c)
    (newReader (⟨[b!"9223372036854775807\x00"], .eof, false⟩ : Script) 16 (fun _ => 0))).1.made, a ≤ 2228 :=
  (blob_memory_stream sizes_exact (script_delivers .eof false) ⟨[b!"9223372036854775807\x00"], .eof, false⟩
    ⟨rfl, rfl, patient_short _ (by decide)⟩ 16 (by decide) (fun _ => 0)).1

end Verif.Props
