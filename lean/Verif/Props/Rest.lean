import Verif.Model.Rest
import Verif.Props.Blob
import Verif.Props.Chunks

/-!
# Several objects in one reader: C87
-/

namespace Verif.Props

open Verif Spec

/-! ## C87 A blob is read up to its end, everything else up to the end of the stream -/

theorem blobRest_fst {σ : Type} [Reader σ] (s : σ) : (decodeBlobRest s >>= fun x => .ok x.1) = decodeBlob s := by
  unfold decodeBlobRest decodeBlob
  cases readNum s with
  | err e => rfl
  | panic => rfl
  | ok x =>
    obtain ⟨z, s⟩ := x
    simp only [Res.bind_ok]
    split
    · rfl
    · cases Reader.readLimited z.toNat s with
      | err e => rfl
      | panic => rfl
      | ok y =>
        obtain ⟨body, s⟩ := y
        simp only [Res.bind_ok]
        split
        · split <;> rfl
        · rfl

/-- The object is that of `parseObject`, for every reader. -/
theorem rest_parse {σ : Type} [Reader σ] (s : σ) : (parseRest s >>= fun x => .ok x.1) = parseObject s := by
  unfold parseRest parseObject
  cases readType s with
  | err e => rfl
  | panic => rfl
  | ok x =>
    obtain ⟨w, s⟩ := x
    simp only [Res.bind_ok]
    rw [← blobRest_fst]
    repeat' split
    · cases decodeTree s <;> rfl
    · cases decodeCommit s <;> rfl
    · cases decodeBlobRest s <;> rfl
    · cases decodeTag s <;> rfl
    · rfl

theorem blobRest_ok (s s' : Stream) (b : Bytes) (h : decodeBlobRest s = .ok (b, s')) :
    ∃ d content, s.rest = d ++ NUL :: (content ++ s'.rest) ∧ s'.fin = s.fin ∧ s'.bufsz = s.bufsz ∧
      Signed d content.length ∧ content.length < 2 ^ 63 ∧ Framed b!"blob" content b := by
  unfold decodeBlobRest at h
  obtain ⟨⟨z, s1⟩, h1, h⟩ := Res.bind_eq_ok.1 h
  obtain ⟨d, hrest, hnul, hat, hf, hb⟩ := readNum_ok _ _ _ h1
  obtain ⟨hs, hlo, hhi⟩ := (atoi_iff d z).1 hat
  simp only at h
  split at h
  · simp at h
  · rename_i hz
    obtain ⟨⟨body, s2⟩, h2, h⟩ := Res.bind_eq_ok.1 h
    simp only at h
    split at h
    · split at h <;> simp at h
    · rename_i hlen
      simp only [ne_eq, Decidable.not_not] at hlen
      simp only [Res.ok.injEq, Prod.mk.injEq] at h
      obtain ⟨h3, rfl⟩ := h
      have hbody : s1.rest = body ++ s2.rest ∧ s2.fin = s1.fin ∧ s2.bufsz = s1.bufsz := by
        simp only [reader_readLimited, Stream.readLimited] at h2
        split at h2
        · simp only [Res.ok.injEq, Prod.mk.injEq] at h2
          rw [← h2.1, ← h2.2]
          exact ⟨(List.take_append_drop _ _).symm, rfl, rfl⟩
        · split at h2
          · simp only [Res.ok.injEq, Prod.mk.injEq] at h2
            rw [← h2.1, ← h2.2]
            exact ⟨(List.append_nil _).symm, rfl, rfl⟩
          · simp at h2
      have hz' : z = (body.length : Int) := by rw [hlen]; omega
      subst hz'
      refine ⟨d, body, by rw [hrest, hbody.1], hbody.2.1.trans hf, hbody.2.2.trans hb, hs, by omega, ?_⟩
      refine ⟨decimal body.length, decimal_canonical _, ?_⟩
      rw [← h3]; simp

theorem signed_nul {d : Bytes} {z : Int} (h : Signed d z) : NUL ∉ d := by
  obtain ⟨ds, -, h1, h2⟩ := h
  have h3 : NUL ∉ ds := fun hx => by
    have := h1 _ hx
    revert this
    unfold Digit
    decide
  rcases h2 with ⟨rfl, -⟩ | ⟨rfl, -⟩ | ⟨rfl, -⟩
  · exact h3
  · intro hx
    rcases List.mem_cons.1 hx with hx | hx
    · exact absurd hx (by decide)
    · exact h3 hx
  · intro hx
    rcases List.mem_cons.1 hx with hx | hx
    · exact absurd hx (by decide)
    · exact h3 hx

theorem blobRest_of (d content rest b : Bytes) (e : Err) (N : Nat) (hd : Signed d content.length)
    (hl : content.length < 2 ^ 63) (hb : Framed b!"blob" content b) :
    decodeBlobRest (σ := Stream) ⟨d ++ NUL :: (content ++ rest), e, N⟩ = .ok (b, ⟨rest, e, N⟩) := by
  unfold decodeBlobRest
  rw [(size_header d _ e N (signed_nul hd) _).2 ⟨hd, by omega, by omega⟩]
  simp only [Res.bind_ok, reader_readLimited, Stream.readLimited, Int.toNat_natCast]
  rw [if_neg (by omega), if_pos (by simp)]
  simp only [Res.bind_ok, List.take_left', List.drop_left', ne_eq, not_true_eq_false, if_false]
  rw [framed_decimal hb]
  simp

theorem rest_blob (d content rest b : Bytes) (e : Err) (N : Nat) (hd : Signed d content.length)
    (hl : content.length < 2 ^ 63) (hb : Framed b!"blob" content b) :
    parseRest (σ := Stream) ⟨b!"blob " ++ d ++ NUL :: (content ++ rest), e, N⟩ = .ok (.blob b, some ⟨rest, e, N⟩) := by
  have h1 : b!"blob " ++ d ++ NUL :: (content ++ rest) = b!"blob" ++ SP :: (d ++ NUL :: (content ++ rest)) := by
    simp [SP]
  unfold parseRest
  rw [h1, readType_word _ _ _ _ (by decide)]
  simp only [Res.bind_ok]
  rw [if_neg (by decide), if_neg (by decide), if_pos trivial, blobRest_of d content rest b e N hd hl hb]
  rfl

/-- What is left once an object was read: a blob takes the type word, the size and as
many bytes as the size says, and leaves the rest; nothing else leaves anything, and
then the stream has been read up to EOF. -/
theorem rest_iff (s : Stream) (hN : 2 ≤ s.bufsz) (o : Obj) (r : Option Stream) :
    parseRest s = .ok (o, r) ↔
      (∃ d content b rest, s.rest = b!"blob " ++ d ++ NUL :: (content ++ rest) ∧ Signed d content.length ∧
        content.length < 2 ^ 63 ∧ Framed b!"blob" content b ∧ o = .blob b ∧ r = some ⟨rest, s.fin, s.bufsz⟩) ∨
      (parseObject s = .ok o ∧ (∀ b, o ≠ .blob b) ∧ s.fin = .eof ∧ r = none) := by
  constructor
  · intro h
    have hp := rest_parse s
    rw [h] at hp
    simp only [Res.bind_ok] at hp
    replace hp := hp.symm
    have hfin : (∀ b, o ≠ .blob b) → s.fin = .eof := by
      intro hb
      by_cases hf : s.fin = .eof
      · exact hf
      · obtain ⟨_, content, _, hx, -⟩ := read_failure s hN o hf hp
        exact absurd hx (hb _)
    have hother : ∀ {α : Type} {x : Res α} {f : α → Obj}, (∀ a b, f a ≠ .blob b) →
        (x >>= fun a => Res.ok (f a, (none : Option Stream))) = .ok (o, r) → (∀ b, o ≠ .blob b) ∧ r = none := by
      intro α x f hf hx
      obtain ⟨a, -, hx⟩ := Res.bind_eq_ok.1 hx
      cases hx
      exact ⟨hf a, rfl⟩
    unfold parseRest at h
    obtain ⟨⟨w, s'⟩, h1, h⟩ := Res.bind_eq_ok.1 h
    obtain ⟨hlt, hsp, hrest⟩ := readType_ok _ _ _ h1
    simp only at h
    split at h
    · obtain ⟨h2, h3⟩ := hother (fun _ _ => Obj.noConfusion) h
      exact .inr ⟨hp, h2, hfin h2, h3⟩
    · split at h
      · obtain ⟨h2, h3⟩ := hother (fun _ _ => Obj.noConfusion) h
        exact .inr ⟨hp, h2, hfin h2, h3⟩
      · split at h
        · rename_i hw
          obtain ⟨⟨b, s2⟩, h2, h⟩ := Res.bind_eq_ok.1 h
          cases h
          obtain ⟨d, content, g1, g2, g3, g4, g5, g6⟩ := blobRest_ok _ _ _ h2
          refine .inl ⟨d, content, b, s2.rest, ?_, g4, g5, g6, rfl, ?_⟩
          · rw [hrest, hw, g1]; simp [SP]
          · rw [← hlt.fin, ← hlt.bufsz, ← g2, ← g3]
        · split at h
          · obtain ⟨h2, h3⟩ := hother (fun _ _ => Obj.noConfusion) h
            exact .inr ⟨hp, h2, hfin h2, h3⟩
          · cases h
  · rintro (⟨d, content, b, rest, h1, h2, h3, h4, rfl, rfl⟩ | ⟨h1, h2, -, rfl⟩)
    · obtain ⟨x, e, N⟩ := s
      simp only at h1
      subst h1
      exact rest_blob d content rest b e N h2 h3 h4
    · unfold parseRest
      unfold parseObject at h1
      obtain ⟨⟨w, s'⟩, g1, h1⟩ := Res.bind_eq_ok.1 h1
      rw [g1]
      simp only [Res.bind_ok] at h1 ⊢
      split at h1
      · rename_i hw
        obtain ⟨a, g2, h1⟩ := Res.bind_eq_ok.1 h1
        cases h1
        rw [if_pos hw, g2]; rfl
      · rename_i hw
        rw [if_neg hw]
        split at h1
        · rename_i hw
          obtain ⟨a, g2, h1⟩ := Res.bind_eq_ok.1 h1
          cases h1
          rw [if_pos hw, g2]; rfl
        · rename_i hw
          rw [if_neg hw]
          split at h1
          · obtain ⟨a, g2, h1⟩ := Res.bind_eq_ok.1 h1
            cases h1
            exact absurd rfl (h2 a)
          · rename_i hw
            rw [if_neg hw]
            split at h1
            · rename_i hw
              obtain ⟨a, g2, h1⟩ := Res.bind_eq_ok.1 h1
              cases h1
              rw [if_pos hw, g2]; rfl
            · cases h1

/-- The texts of blobs with the given contents. -/
inductive BlobTexts : List Bytes → List Bytes → Prop
  | nil : BlobTexts [] []
  | cons {content text : Bytes} {cs ts : List Bytes} (h : Framed b!"blob" content text)
      (hl : content.length < 2 ^ 63) (r : BlobTexts cs ts) : BlobTexts (content :: cs) (text :: ts)

theorem rest_text (content rest b : Bytes) (e : Err) (N : Nat) (hl : content.length < 2 ^ 63)
    (hb : Framed b!"blob" content b) : parseRest (σ := Stream) ⟨b ++ rest, e, N⟩ = .ok (.blob b, some ⟨rest, e, N⟩) := by
  obtain ⟨d, hd, rfl⟩ := hb
  have := rest_blob d content rest _ e N ⟨d, hd.1, hd.2.1, .inl ⟨rfl, by rw [hd.2.2.2]⟩⟩ hl ⟨d, hd, rfl⟩
  rw [← this]
  congr 2
  simp [SP]

/-- Blobs that stand one after the other can be read one after the other, and then
what follows them. -/
theorem blobs_in_a_row {cs ts : List Bytes} (h : BlobTexts cs ts) (tail : Bytes) (e : Err) (N : Nat) :
    parseSeq (σ := Stream) ts.length ⟨ts.flatten ++ tail, e, N⟩ = .ok (ts.map .blob, some ⟨tail, e, N⟩) ∧
    ∀ o r, parseRest (σ := Stream) ⟨tail, e, N⟩ = .ok (o, r) →
      parseSeq (σ := Stream) (ts.length + 1) ⟨ts.flatten ++ tail, e, N⟩ = .ok (ts.map .blob ++ [o], r) := by
  induction h with
  | nil =>
    refine ⟨rfl, fun o r h => ?_⟩
    show (parseRest (σ := Stream) ⟨tail, e, N⟩ >>= _) = _
    rw [h]
    cases r <;> rfl
  | @cons content text cs ts hf hl hr ih =>
    have h1 := rest_text content (ts.flatten ++ tail) text e N hl hf
    rw [← List.append_assoc, ← List.flatten_cons] at h1
    constructor
    · show (parseRest (σ := Stream) ⟨(text :: ts).flatten ++ tail, e, N⟩ >>= _) = _
      rw [h1]
      show (parseSeq (σ := Stream) ts.length ⟨ts.flatten ++ tail, e, N⟩ >>= _) = _
      rw [ih.1]
      rfl
    · intro o r h
      show (parseRest (σ := Stream) ⟨(text :: ts).flatten ++ tail, e, N⟩ >>= _) = _
      rw [h1]
      show (parseSeq (σ := Stream) (ts.length + 1) ⟨ts.flatten ++ tail, e, N⟩ >>= _) = _
      rw [ih.2 o r h]
      rfl

theorem sim_blobRest {σ τ : Type} [Reader σ] [Reader τ] {R : σ → τ → Prop} (S : ReaderSim R) (s : σ) (t : τ)
    (h : R s t) : RelRes R (decodeBlobRest s) (decodeBlobRest t) := by
  unfold decodeBlobRest
  refine (sim_readNum S s t h).bind fun n s t h => ?_
  simp only
  split
  · rfl
  · refine (S.readLimited _ s t h).bind fun b s t h => ?_
    simp only
    split
    · split <;> rfl
    · exact ⟨rfl, h⟩

theorem sim_parseRest {σ τ : Type} [Reader σ] [Reader τ] {R : σ → τ → Prop} (S : ReaderSim R) (s : σ) (t : τ)
    (h : R s t) {o : Obj} {t' : τ} (ht : parseRest t = .ok (o, some t')) :
    ∃ s', parseRest s = .ok (o, some s') ∧ R s' t' := by
  unfold parseRest at ht ⊢
  rcases (sim_readType S s t h).cases with ⟨x, s1, t1, h1, h2, h3⟩ | ⟨e, h1, h2⟩ | ⟨h1, h2⟩
  · rw [h1]
    rw [h2] at ht
    simp only [Res.bind_ok] at ht ⊢
    split at ht
    · obtain ⟨_, _, hx⟩ := Res.bind_eq_ok.1 ht
      cases hx
    · rename_i hw
      rw [if_neg hw]
      split at ht
      · obtain ⟨_, _, hx⟩ := Res.bind_eq_ok.1 ht
        cases hx
      · rename_i hw
        rw [if_neg hw]
        split at ht
        · rename_i hw
          rw [if_pos hw]
          rcases (sim_blobRest S s1 t1 h3).cases with ⟨x, s2, t2, g1, g2, g3⟩ | ⟨e, g1, g2⟩ | ⟨g1, g2⟩
          · rw [g2] at ht
            cases ht
            rw [g1]
            exact ⟨s2, rfl, g3⟩
          · rw [g2] at ht; cases ht
          · rw [g2] at ht; cases ht
        · split at ht
          · obtain ⟨_, _, hx⟩ := Res.bind_eq_ok.1 ht
            cases hx
          · cases ht
  · rw [h2] at ht; cases ht
  · rw [h2] at ht; cases ht

theorem sim_parseSeq {σ τ : Type} [Reader σ] [Reader τ] {R : σ → τ → Prop} (S : ReaderSim R) (n : Nat) (s : σ) (t : τ)
    (h : R s t) {os : List Obj} {t' : τ} (ht : parseSeq n t = .ok (os, some t')) :
    ∃ s', parseSeq n s = .ok (os, some s') ∧ R s' t' := by
  induction n generalizing s t os with
  | zero => cases ht; exact ⟨s, rfl, h⟩
  | succ n ih =>
    unfold parseSeq at ht ⊢
    obtain ⟨⟨o, r⟩, h1, ht⟩ := Res.bind_eq_ok.1 ht
    cases r with
    | none =>
      simp only at ht
      split at ht <;> cases ht
    | some t1 =>
      obtain ⟨s1, h2, h3⟩ := sim_parseRest S s t h h1
      simp only at ht
      obtain ⟨⟨os', r⟩, h4, ht⟩ := Res.bind_eq_ok.1 ht
      cases ht
      obtain ⟨s2, h5, h6⟩ := ih s1 t1 h3 h4
      refine ⟨s2, ?_, h6⟩
      rw [h2]
      simp only [Res.bind_ok]
      rw [h5]
      rfl

/-- The same through a buffered reader over any `io.Reader`, in however many pieces
that delivers the bytes: after the blobs, whatever follows is parsed as if it stood
alone. -/
theorem blobs_in_a_row_any {ρ : Type} [Source ρ] {inv : ρ → Prop} {pending : ρ → Bytes} {fin : Err} {eager : Prop}
    (D : Delivers ρ inv pending fin eager) (r : ρ) (hr : inv r) (size : Nat) (hs : 0 < size) (room : Nat → Nat)
    (he : eager → fin = .eof ∧ (pending r).getLast? ≠ some CR) {cs ts : List Bytes} (h : BlobTexts cs ts)
    (tail : Bytes) (hp : pending r = ts.flatten ++ tail) :
    ∃ b, parseSeq ts.length (newReader r size room) = .ok (ts.map .blob, some b) ∧
      parseObject b = parseObject (σ := Stream) ⟨tail, fin, size⟩ := by
  have h1 := (blobs_in_a_row h tail fin size).1
  rw [← hp] at h1
  obtain ⟨b, h2, h3⟩ := sim_parseSeq (bufio_sim D) _ _ _ (newReader_match r hr size hs room he) h1
  exact ⟨b, h2, sim_parseObject (bufio_sim D) _ _ h3⟩

example : BlobTexts [b!"hi", []] [b!"blob 2\x00hi", b!"blob 0\x00"] :=
  .cons ⟨b!"2", by simp [Canonical, Digit, value], by decide⟩ (by decide)
    (.cons ⟨b!"0", by simp [Canonical, Digit, value], by decide⟩ (by decide) .nil)

/-- Two blobs and a tree. -/
example : (parseSeq 3 (newReader (⟨[b!"blob 2\x00hib", b!"lob 0\x00tr", b!"ee 0\x00"], .eof, false⟩ : Script) 16
    fun _ => 511) >>= fun x => .ok x.1) =
    .ok [.blob b!"blob 2\x00hi", .blob b!"blob 0\x00", .tree ⟨[], []⟩] := by decide +kernel

/-- A tree does not end where its size says: what follows it becomes an entry. -/
example : (parseSeq 1 (⟨b!"tree 0\x00tree 29\x00abcdefghijklmnopqrst", .eof, 4096⟩ : Stream) >>= fun x =>
    .ok (x.1.map fun o => match o with | .tree t => t.t.map (fun e => (e.1, e.2.mode)) | _ => [])) =
    .ok [[(b!"29", b!"tree")]] := by decide +kernel

end Verif.Props
