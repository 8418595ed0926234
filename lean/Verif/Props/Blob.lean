import Verif.Proofs.Parse

/-!
# Blobs: C01, C02, C03 and the size header C42
-/

namespace Verif.Props

open Verif Spec

/-! ## C42 Size header is range checked -/

/-- The size header is accepted exactly when it is an optional sign and a
non-empty string of digits whose value is a 64-bit signed integer, and then it
is read as that value. -/
theorem size_header (d r : Bytes) (e : Err) (N : Nat) (hd : NUL ∉ d) (z : Int) :
    readNum (σ := Stream) ⟨d ++ NUL :: r, e, N⟩ = .ok (z, ⟨r, e, N⟩) ↔
      Signed d z ∧ -(2 ^ 63 : Int) ≤ z ∧ z < 2 ^ 63 := by
  rw [readNum_stream _ _ _ _ hd, ← atoi_iff]
  cases atoi d <;> simp

/-- Everything else is an error: no header is silently misread. -/
theorem size_header_rejects (d r : Bytes) (e : Err) (N : Nat) (hd : NUL ∉ d)
    (h : ∀ z, ¬ (Signed d z ∧ -(2 ^ 63 : Int) ≤ z ∧ z < 2 ^ 63)) :
    readNum (σ := Stream) ⟨d ++ NUL :: r, e, N⟩ = .err .atoi := by
  rw [readNum_stream _ _ _ _ hd]
  cases ha : atoi d with
  | ok z => exact absurd ((atoi_iff d z).1 ha) (h z)
  | err x =>
    unfold atoi at ha
    split at ha
    · simp_all
    · split at ha
      · simp_all
      · split at ha <;> split at ha <;> simp_all
  | panic => exact absurd ha (clean_atoi d).1

/-- The header decides the fate of blobs, trees and commits alike. -/
theorem size_header_objects (w d r : Bytes) (e : Err) (N : Nat) (hd : NUL ∉ d)
    (hw : w = b!"blob" ∨ w = b!"tree" ∨ w = b!"commit")
    (h : ∀ z, ¬ (Signed d z ∧ -(2 ^ 63 : Int) ≤ z ∧ z < 2 ^ 63)) :
    parseObject (σ := Stream) ⟨w ++ SP :: (d ++ NUL :: r), e, N⟩ = .err .atoi := by
  have hr := size_header_rejects d r e N hd h
  rcases hw with rfl | rfl | rfl
  · rw [parse_blob]; simp [decodeBlob, hr]
  · rw [parse_tree]; simp [decodeTree, hr]
  · rw [parse_commit]; simp [decodeCommit, hr]

example : Signed b!"+007" 7 ∧ -(2 ^ 63 : Int) ≤ 7 ∧ (7 : Int) < 2 ^ 63 :=
  ⟨⟨b!"007", by decide, by simp [Digit], Or.inr (Or.inl ⟨rfl, by simp [value]⟩)⟩, by decide, by decide⟩

/-- `9223372036854775808` is one too much, so the second theorem is not vacuous. -/
example : atoi b!"9223372036854775808" = .err .atoi ∧ atoi b!"-9223372036854775808" ≠ .err .atoi := by
  decide

/-! ## C01 Blob round trip -/

/-- Decoding `blob <size>\0<content>`, whatever follows it, gives a node with
exactly these bytes, and encoding the node writes them back. -/
theorem blob_roundtrip (content out rest : Bytes) (e : Err) (N : Nat)
    (hlen : content.length < 2 ^ 63) (h : Framed b!"blob" content out) :
    parseObject (σ := Stream) ⟨out ++ rest, e, N⟩ = .ok (.blob out) ∧
      encObj (.blob out) = .ok out := by
  refine ⟨?_, rfl⟩
  rw [framed_decimal h]
  have : b!"blob" ++ SP :: (decimal content.length ++ NUL :: content) ++ rest =
      b!"blob" ++ SP :: (decimal content.length ++ NUL :: (content ++ rest)) := by simp
  rw [this, parse_blob, decodeBlob_framed _ _ _ _ hlen]
  simp

example : Framed b!"blob" b!"a\x00b" b!"blob 3\x00a\x00b" ∧ (b!"a\x00b").length < 2 ^ 63 :=
  ⟨⟨b!"3", by simp [Canonical, Digit, value], by decide⟩, by decide⟩

/-! ## C02 Decoded blobs are canonical -/

/-- Whatever is accepted as a blob: the stream is a size header followed by at
least that many bytes, the node holds the canonical serialization of the first
`size` of them, and decoding that again gives the same node. -/
theorem blob_canonical (s : Stream) (b : Bytes) (h : parseObject s = .ok (.blob b)) :
    ∃ d content rest, s.rest = b!"blob " ++ d ++ NUL :: (content ++ rest) ∧
      Signed d content.length ∧ Framed b!"blob" content b ∧
      ∀ (more : Bytes) (e : Err) (N : Nat), parseObject (σ := Stream) ⟨b ++ more, e, N⟩ = .ok (.blob b) := by
  rcases parse_inv_ok s _ h with ⟨_, _, _, _, _, _, h⟩ | ⟨_, _, _, _, _, _, h⟩ |
    ⟨b', s', hr, _, _, hd, hb⟩ | ⟨_, _, _, _, _, _, h⟩
  · simp at h
  · simp at h
  · simp only [Obj.blob.injEq] at hb
    subst hb
    unfold decodeBlob at hd
    obtain ⟨⟨z, s1⟩, h1, hd⟩ := Res.bind_eq_ok.1 hd
    obtain ⟨d, hrest, hnul, hat, _, _⟩ := readNum_ok _ _ _ h1
    obtain ⟨hs, hlo, hhi⟩ := (atoi_iff d z).1 hat
    simp only at hd
    split at hd
    · simp at hd
    · rename_i hz
      obtain ⟨⟨body, s2⟩, h2, hd⟩ := Res.bind_eq_ok.1 hd
      simp only at hd
      split at hd
      · split at hd <;> simp at hd
      · rename_i hlen
        simp only [ne_eq, Decidable.not_not] at hlen
        simp only [Res.ok.injEq] at hd
        have hbody : ∃ rest, s1.rest = body ++ rest := by
          simp only [reader_readLimited, Stream.readLimited] at h2
          split at h2
          · simp only [Res.ok.injEq, Prod.mk.injEq] at h2
            exact ⟨s1.rest.drop z.toNat, by rw [← h2.1, List.take_append_drop]⟩
          · split at h2
            · simp only [Res.ok.injEq, Prod.mk.injEq] at h2
              exact ⟨[], by rw [← h2.1]; simp⟩
            · simp at h2
        obtain ⟨rest, hbody⟩ := hbody
        have hz' : z = (body.length : Int) := by rw [hlen]; omega
        subst hz'
        have hf : Framed b!"blob" body b := by
          refine ⟨decimal body.length, decimal_canonical _, ?_⟩
          rw [← hd]; simp
        refine ⟨d, body, rest, ?_, hs, hf, ?_⟩
        · rw [hr, hrest, hbody]; simp
        · intro more e N
          exact (blob_roundtrip body b more e N (by omega) hf).1
  · simp at h

example : parseObject (σ := Stream) ⟨b!"blob +02\x00hi!", .eof, 4096⟩ = .ok (.blob b!"blob 2\x00hi") := by
  decide

/-! ## C03 Short blobs are rejected -/

/-- If fewer bytes follow than announced, decoding fails: with EOF if none
follow, with unexpected EOF otherwise. -/
theorem blob_short (d body : Bytes) (z : Int) (N : Nat) (hd : Signed d z) (hz : z < 2 ^ 63)
    (hshort : (body.length : Int) < z) :
    parseObject (σ := Stream) ⟨b!"blob " ++ d ++ NUL :: body, .eof, N⟩ =
      .err (if body = [] then .eof else .unexpectedEof) := by
  have : b!"blob " ++ d ++ NUL :: body = b!"blob" ++ SP :: (d ++ NUL :: body) := by simp
  rw [this, parse_blob]
  unfold decodeBlob
  rw [readNum_signed d body .eof N z hd (by omega) hz]
  simp only [Res.bind_ok, reader_readLimited, Stream.readLimited]
  rw [if_neg (by omega), if_neg (by omega)]
  simp only [if_true, Res.bind_ok]
  rw [if_pos (by omega)]
  by_cases hb : body = []
  · simp [hb]
  · rw [if_neg (by simpa using hb), if_neg hb]; rfl

/-- Any other read failure before the announced number of bytes is reported. -/
theorem blob_short_err (d body : Bytes) (z : Int) (e : Err) (N : Nat) (hd : Signed d z)
    (hz : z < 2 ^ 63) (hshort : (body.length : Int) < z) (he : e ≠ .eof) :
    parseObject (σ := Stream) ⟨b!"blob " ++ d ++ NUL :: body, e, N⟩ = .err e := by
  have : b!"blob " ++ d ++ NUL :: body = b!"blob" ++ SP :: (d ++ NUL :: body) := by simp
  rw [this, parse_blob]
  unfold decodeBlob
  rw [readNum_signed d body e N z hd (by omega) hz]
  simp only [Res.bind_ok, reader_readLimited, Stream.readLimited]
  rw [if_neg (by omega), if_neg (by omega), if_neg he]
  rfl

/-- A negative size is rejected. -/
theorem blob_negative (d r : Bytes) (z : Int) (e : Err) (N : Nat) (hd : Signed d z) (hz : z < 0) :
    ∃ x, parseObject (σ := Stream) ⟨b!"blob " ++ d ++ NUL :: r, e, N⟩ = .err x := by
  have : b!"blob " ++ d ++ NUL :: r = b!"blob" ++ SP :: (d ++ NUL :: r) := by simp
  rw [this]
  by_cases hlo : -(2 ^ 63 : Int) ≤ z
  · refine ⟨.negSize, ?_⟩
    rw [parse_blob]
    unfold decodeBlob
    rw [readNum_signed d r e N z hd hlo (by omega)]
    simp [hz]
  · refine ⟨.atoi, size_header_objects _ d r e N (signed_nul hd) (Or.inl rfl) ?_⟩
    rintro z' ⟨hs, h1, h2⟩
    have : z' = z := by
      obtain ⟨ds, hne, hdg, h⟩ := hd
      obtain ⟨ds', hne', hdg', h'⟩ := hs
      have hc : ∀ (x y : Bytes) (c : UInt8), (∀ q ∈ x, Digit q) → x = c :: y → ¬ (c = 43) ∧ ¬ (c = 45) := by
        intro x y c hx hxy
        have := hx c (by simp [hxy])
        constructor <;> (rintro rfl; simp [Digit] at this)
      rcases h with ⟨rfl, rfl⟩ | ⟨rfl, rfl⟩ | ⟨rfl, rfl⟩ <;>
        rcases h' with ⟨h', rfl⟩ | ⟨h', rfl⟩ | ⟨h', rfl⟩
      · rw [h']
      · exact absurd rfl (hc _ _ _ hdg h').1
      · exact absurd rfl (hc _ _ _ hdg h').2
      · exact absurd rfl (hc _ _ _ hdg' h'.symm).1
      · simp only [List.cons.injEq, true_and] at h'; rw [h']
      · simp at h'
      · exact absurd rfl (hc _ _ _ hdg' h'.symm).2
      · simp at h'
      · simp only [List.cons.injEq, true_and] at h'; rw [h']
    omega

example : parseObject (σ := Stream) ⟨b!"blob 5\x00hi", .eof, 4096⟩ = .err .unexpectedEof ∧
    parseObject (σ := Stream) ⟨b!"blob 5\x00", .eof, 4096⟩ = .err .eof ∧
    parseObject (σ := Stream) ⟨b!"blob -5\x00hi", .eof, 4096⟩ = .err .negSize := by
  decide

end Verif.Props
