import Verif.Model.Block
import Verif.Proofs.Parse

/-!
# Entry points: C21, C22, C24, C25, C26, C27

Streams have a buffer of at least 2 bytes; `bufio.NewReader` gives 4096. The
error value `Err.fuel` stands for "the model ran out of recursion steps" and is
produced by no reader.
-/

namespace Verif.Props

open Verif Spec

/-! ## C21 Decoding never panics -/

/-- `ParseObject` returns a node or an error on every stream, whatever the error
that ends it. -/
theorem parse_no_panic (s : Stream) (hN : 2 ≤ s.bufsz) (hf : s.fin ≠ .fuel) : parseObject s ≠ .panic :=
  (clean_parseObject s hN hf).1

/-- So does `Decode`, for every assembler that does not itself panic. -/
theorem decode_no_panic {β : Type} (na : Sink β) (s : Stream) (hN : 2 ≤ s.bufsz) (hf : s.fin ≠ .fuel)
    (h1 : ∀ o, na.assignNode o ≠ .panic) (h2 : ∀ b, na.assignBytes b ≠ .panic) : decode na s ≠ .panic := by
  intro h
  unfold decode at h
  rcases Res.bind_eq_panic.1 h with h | ⟨⟨w, s'⟩, hw, h⟩
  · exact (clean_readType _ hf).1 h
  have hl := (readType_ok _ _ _ hw).1
  have hN' : 2 ≤ s'.bufsz := by rw [hl.bufsz]; exact hN
  have hf' : s'.fin ≠ .fuel := by rw [hl.fin]; exact hf
  simp only at h
  split at h
  · rcases Res.bind_eq_panic.1 h with h | ⟨t, _, h⟩
    · exact (clean_decodeTree _ hf').1 h
    · exact h1 _ h
  split at h
  · rcases Res.bind_eq_panic.1 h with h | ⟨t, _, h⟩
    · exact (clean_decodeCommit _ hN' hf').1 h
    · exact h1 _ h
  split at h
  · rcases Res.bind_eq_panic.1 h with h | ⟨t, _, h⟩
    · exact (clean_decodeBlob _ hf').1 h
    · exact h2 _ h
  split at h
  · rcases Res.bind_eq_panic.1 h with h | ⟨t, _, h⟩
    · exact (clean_decodeTag _ hN' hf').1 h
    · exact h1 _ h
  · simp at h

/-- Person lines of any shape are parsed without a panic. -/
theorem person_no_panic (line : Bytes) : parsePersonInfo line ≠ .panic := (clean_parsePersonInfo line).1

/-- `DecodeBlock` and `ParseObjectFromBuffer` do not panic either. -/
theorem block_no_panic (b : Block) : decodeBlock b ≠ .panic ∧ parseObjectFromBuffer b.data ≠ .panic := by
  have := parse_no_panic ⟨b.data, .eof, 4096⟩ (by simp) (by simp)
  refine ⟨?_, this⟩
  unfold decodeBlock
  simp only
  split
  · simp
  · exact this

/-- A line with double spaces and bare brackets, read in a commit. -/
example : parseObject (σ := Stream) ⟨b!"commit 9\x00author   <  >  ", .io 3, 16⟩ = .err (.io 3) ∧
    parseObject (σ := Stream) ⟨b!"commit 9\x00author   <  >  ", .eof, 2⟩ ≠ .panic := by
  decide

/-! ## C22 Decoding terminates -/

/-- The recursion bound of the model, the number of bytes left, is never reached. -/
theorem decode_terminates (s : Stream) (hN : 2 ≤ s.bufsz) (hf : s.fin ≠ .fuel) :
    parseObject s ≠ .err .fuel :=
  (clean_parseObject s hN hf).2

/-- Each loop of the decoder makes at most as many iterations as bytes are left,
plus one: any larger bound gives the same result. -/
theorem loops_bounded (s : Stream) (hN : 2 ≤ s.bufsz) (f : Nat) (hf : s.rest.length < f) :
    (∀ c, commitLoop f c s = commitLoop (s.rest.length + 1) c s) ∧
    (∀ c l, commitLine f c l s = commitLine (s.rest.length + 1) c l s) ∧
    (∀ m, sigLoop f m s = sigLoop (s.rest.length + 1) m s) ∧
    (∀ t, mergeTagLoop f t s = mergeTagLoop (s.rest.length + 1) t s) ∧
    (∀ m, mergeMsgLoop f m s = mergeMsgLoop (s.rest.length + 1) m s) ∧
    (∀ t, tagLoop f t s = tagLoop (s.rest.length + 1) t s) ∧
    (∀ t, treeLoop f t s = treeLoop (s.rest.length + 1) t s) :=
  ⟨fun c => commitLoop_fuel f _ c s hN hf (by omega), fun c l => commitLine_fuel f _ c l s hN hf (by omega),
    fun m => sigLoop_fuel f _ m s hN hf (by omega), fun t => mergeTagLoop_fuel f _ t s hN hf (by omega),
    fun m => mergeMsgLoop_fuel f _ m s hN hf (by omega), fun t => tagLoop_fuel f _ t s hN hf (by omega),
    fun t => treeLoop_fuel f _ t s hf (by omega)⟩

example : ∃ s : Stream, 2 ≤ s.bufsz ∧ s.fin ≠ .fuel ∧ s.rest ≠ [] :=
  ⟨⟨b!"commit 0\x00mergetag object ", .eof, 4096⟩, by decide, by decide, by decide⟩

/-! ## C24 Read failures are reported -/

/-- If the reader fails with an error other than EOF, only a blob can be decoded,
and only if its whole body had arrived before. -/
theorem read_failure (s : Stream) (hN : 2 ≤ s.bufsz) (o : Obj) (hf : s.fin ≠ .eof)
    (h : parseObject s = .ok o) :
    ∃ d content rest, o = .blob (b!"blob " ++ decimal content.length ++ NUL :: content) ∧
      s.rest = b!"blob " ++ d ++ NUL :: (content ++ rest) ∧ Signed d content.length := by
  rcases parse_inv_ok s o h with ⟨t, s', _, hfin, hb, hd, _⟩ | ⟨c, s', _, hfin, hb, hd, _⟩ |
    ⟨b, s', hr, hfin, hb, hd, rfl⟩ | ⟨t, s', _, hfin, hb, hd, _⟩
  · exact absurd (hfin ▸ decodeTree_eof _ _ hd) hf
  · exact absurd (hfin ▸ decodeCommit_eof _ (by rw [hb]; exact hN) _ hd) hf
  · unfold decodeBlob at hd
    obtain ⟨⟨z, s1⟩, h1, hd⟩ := Res.bind_eq_ok.1 hd
    obtain ⟨d, hrest, hnul, hat, _, _⟩ := readNum_ok _ _ _ h1
    have hs := ((atoi_iff d z).1 hat).1
    simp only at hd
    split at hd
    · simp at hd
    · rename_i hz
      obtain ⟨⟨body, s2⟩, h2, hd⟩ := Res.bind_eq_ok.1 hd
      simp only at hd
      split at hd
      · split at hd <;> simp at hd
      · rename_i hlen
        simp only [ne_eq, Decidable.not_not] at hlen
        simp only [Res.ok.injEq] at hd
        have hbody : ∃ rest, s1.rest = body ++ rest := by
          simp only [reader_readLimited, Stream.readLimited] at h2
          split at h2
          · simp only [Res.ok.injEq, Prod.mk.injEq] at h2
            exact ⟨s1.rest.drop z.toNat, by rw [← h2.1, List.take_append_drop]⟩
          · split at h2
            · simp only [Res.ok.injEq, Prod.mk.injEq] at h2
              exact ⟨[], by rw [← h2.1]; simp⟩
            · simp at h2
        obtain ⟨rest, hbody⟩ := hbody
        have hz' : z = (body.length : Int) := by rw [hlen]; omega
        subst hz'
        refine ⟨d, body, rest, ?_, ?_, hs⟩
        · rw [← hd]; simp
        · rw [hr, hrest, hbody]; simp
  · exact absurd (hfin ▸ decodeTag_eof _ (by rw [hb]; exact hN) _ hd) hf

/-- A failing read after the complete body of a blob goes unnoticed. -/
example : parseObject (σ := Stream) ⟨b!"blob 2\x00hi", .io 1, 4096⟩ = .ok (.blob b!"blob 2\x00hi") ∧
    parseObject (σ := Stream) ⟨b!"commit 0\x00\nhi", .io 1, 4096⟩ = .err (.io 1) := by
  decide

/-! ## C25 ParseObject agrees with Decode -/

/-- What the decoders do with the finished object. -/
def deliver {β : Type} (na : Sink β) : Obj → Res β
  | .blob b => na.assignBytes b
  | o => na.assignNode o

/-- For every assembler and every stream, `Decode` is `ParseObject` followed by
handing over the object. -/
theorem decode_parse {β σ : Type} [Reader σ] (na : Sink β) (s : σ) :
    decode na s = parseObject s >>= deliver na := by
  unfold decode parseObject
  cases readType s with
  | err e => rfl
  | panic => rfl
  | ok p =>
    obtain ⟨w, s'⟩ := p
    simp only [Res.bind_ok]
    split
    · cases decodeTree s' <;> rfl
    split
    · cases decodeCommit s' <;> rfl
    split
    · cases decodeBlob s' <;> rfl
    split
    · cases decodeTag s' <;> rfl
    · rfl

/-- A builder that accepts nodes of its own type as they are. -/
structure BuilderFor (o : Obj) (na : Sink Obj) : Prop where
  node : (∀ b, o ≠ .blob b) → na.assignNode o = .ok o
  bytes : ∀ b, o = .blob b → na.assignBytes b = .ok o

/-- Decoding into a builder of the matching type gives the node of `ParseObject`;
if `ParseObject` fails, `Decode` fails in the same way. -/
theorem decode_builder (na : Sink Obj) (s : Stream) :
    (∀ o, BuilderFor o na → parseObject s = .ok o → decode na s = .ok o) ∧
    (∀ e, parseObject s = .err e → decode na s = .err e) := by
  constructor
  · intro o hb h
    rw [decode_parse, h]
    cases o with
    | blob b => exact hb.bytes b rfl
    | tree t => exact hb.node (by simp)
    | commit t => exact hb.node (by simp)
    | tag t => exact hb.node (by simp)
  · intro e h
    rw [decode_parse, h]; rfl

/-- `ParseCompressedObject` is `ParseObject` of the decompressed stream. -/
theorem compressed_parse {σ : Type} (zlib : σ → Res Stream) (s : σ) (rc : Stream) (h : zlib s = .ok rc) :
    parseCompressed zlib s = parseObject rc ∧
      (∀ b, rc = ⟨b, .eof, 4096⟩ → parseCompressed zlib s = parseObjectFromBuffer b) := by
  unfold parseCompressed
  rw [h]
  exact ⟨rfl, fun b hb => by rw [hb]; rfl⟩

example : ∃ na : Sink Obj, ∀ b, BuilderFor (.blob b) na :=
  ⟨⟨fun _ => .err .wrongKind, fun b => .ok (.blob b)⟩, fun b => ⟨fun h => absurd rfl (h b), fun b h => by rw [h]⟩⟩

/-! ## C26 DecodeBlock accepts exactly git CIDs -/

/-- The minimal base-128 notation of a number, least significant digit first, all
bytes but the last with the high bit set. -/
inductive Varint : Nat → Bytes → Prop where
  | last {n : Nat} : n < 128 → Varint n [UInt8.ofNat n]
  | more {n : Nat} {bs : Bytes} : 0 < n → Varint n bs → ∀ d < 128, Varint (128 * n + d) (UInt8.ofNat (d + 128) :: bs)

theorem varint_bound (i w d : Nat) (hi : i ≤ 8) (hd : d < 128) (h : w * 128 ^ (i + 1) < 2 ^ 64) :
    (128 * w + d) * 128 ^ i < 2 ^ 64 := by
  have h1 : (128 * w + d) * 128 ^ i < (w + 1) * 128 ^ (i + 1) := by
    rw [Nat.pow_succ, Nat.mul_comm (128 ^ i) 128, ← Nat.mul_assoc]
    exact Nat.mul_lt_mul_of_pos_right (by omega) (Nat.pow_pos (by omega))
  have h2 : 2 ^ 64 = 2 ^ (64 - 7 * (i + 1)) * 128 ^ (i + 1) := by
    have : (128 : Nat) = 2 ^ 7 := by decide
    rw [this, ← Nat.pow_mul, ← Nat.pow_add]
    congr 1; omega
  rw [h2] at h
  have h3 := Nat.lt_of_mul_lt_mul_right h
  rw [h2]
  exact Nat.lt_of_lt_of_le h1 (Nat.mul_le_mul_right _ h3)

theorem uvarintLoop_some (i x : Nat) (bs : Bytes) (v n : Nat) (h : uvarintLoop i x bs = some (v, n)) :
    i < n ∧ n ≤ i + bs.length ∧ i ≤ 9 ∧
      ∃ w, Varint w (bs.take (n - i)) ∧ v = x + w * 128 ^ i ∧ (0 < i → 0 < w) ∧ w * 128 ^ i < 2 ^ 64 := by
  induction bs generalizing i x with
  | nil => simp [uvarintLoop] at h
  | cons b bs ih =>
    unfold uvarintLoop at h
    split at h
    · rename_i hb
      split at h
      · simp at h
      · rename_i hi
        split at h
        · simp at h
        · rename_i hz
          simp only [Option.some.injEq, Prod.mk.injEq] at h
          obtain ⟨rfl, rfl⟩ := h
          refine ⟨by omega, by simp, by omega, b.toNat, ?_, rfl, by omega, ?_⟩
          · have : (b :: bs).take (i + 1 - i) = [UInt8.ofNat b.toNat] := by
              rw [Nat.add_sub_cancel_left]; simp
            rw [this]
            exact .last hb
          · have hi : i = 0 ∨ i = 1 ∨ i = 2 ∨ i = 3 ∨ i = 4 ∨ i = 5 ∨ i = 6 ∨ i = 7 ∨ i = 8 ∨
              (i = 9 ∧ b.toNat ≤ 1) := by omega
            rcases hi with rfl | rfl | rfl | rfl | rfl | rfl | rfl | rfl | rfl | ⟨rfl, h1⟩ <;> omega
    · rename_i hb
      obtain ⟨h1, h3, hi, w, hw, hv, hp, hlt⟩ := ih _ _ h
      have hlb := UInt8.toNat_lt b
      refine ⟨by omega, by simp; omega, by omega, 128 * w + (b.toNat - 128), ?_, ?_, ?_, ?_⟩
      · obtain ⟨k, hk⟩ : ∃ k, n - i = k + 1 := ⟨n - i - 1, by omega⟩
        have hk' : n - (i + 1) = k := by omega
        rw [hk, List.take_succ_cons]
        rw [hk'] at hw
        have := Varint.more (hp (by omega)) hw (b.toNat - 128) (by omega)
        have hbb : UInt8.ofNat (b.toNat - 128 + 128) = b := by
          rw [Nat.sub_add_cancel (by omega)]; simp
        rw [hbb] at this
        exact this
      · have hmul : w * 128 ^ (i + 1) = 128 * w * 128 ^ i := by
          rw [Nat.pow_succ, Nat.mul_comm 128 w, Nat.mul_assoc, Nat.mul_comm 128]
        rw [hv, Nat.add_mul, hmul]
        generalize 128 * w * 128 ^ i = A
        generalize (b.toNat - 128) * 128 ^ i = B
        omega
      · have := hp (by omega)
        intro _; omega
      · exact varint_bound i w _ (by omega) (by omega) hlt

theorem uvarintLoop_varint {w : Nat} {bs : Bytes} (h : Varint w bs) (r : Bytes) (i x : Nat)
    (hlt : w * 128 ^ i < 2 ^ 64) (hp : 0 < i → 0 < w) :
    uvarintLoop i x (bs ++ r) = some (x + w * 128 ^ i, i + bs.length) := by
  have hi9 : ∀ w i : Nat, w * 128 ^ i < 2 ^ 64 → (0 < i → 0 < w) → i ≤ 9 ∧ (i = 9 → w ≤ 1) := by
    intro w i h hp
    constructor
    · apply Decidable.byContradiction
      intro hi
      have h1 : 128 ^ 10 ≤ 128 ^ i := Nat.pow_le_pow_right (by omega) (by omega)
      have h2 : 1 * 128 ^ i ≤ w * 128 ^ i := Nat.mul_le_mul_right _ (hp (by omega))
      omega
    · rintro rfl
      omega
  induction h generalizing i x with
  | last hn =>
    rename_i n
    obtain ⟨h9, h10⟩ := hi9 _ _ hlt hp
    have hn' : (UInt8.ofNat n).toNat = n := by simp; omega
    simp only [List.cons_append, List.nil_append, List.length_cons, List.length_nil]
    unfold uvarintLoop
    rw [hn', if_pos hn, if_neg (by omega), if_neg (by omega)]
  | more hpos _ d hd ih =>
    rename_i n bs _
    simp only [List.cons_append, List.length_cons]
    have hn' : (UInt8.ofNat (d + 128)).toNat = d + 128 := by simp; omega
    have hmul : n * 128 ^ (i + 1) + d * 128 ^ i = (128 * n + d) * 128 ^ i := by
      rw [Nat.pow_succ, Nat.add_mul, Nat.mul_comm 128 n, Nat.mul_assoc, Nat.mul_comm 128]
    unfold uvarintLoop
    rw [hn', if_neg (by omega), ih (i + 1) _ (by omega) (fun _ => hpos)]
    simp only [Option.some.injEq, Prod.mk.injEq]
    refine ⟨?_, by omega⟩
    rw [Nat.add_sub_cancel, ← hmul]
    omega

theorem uvarint_varint {w : Nat} {bs : Bytes} (h : Varint w bs) (r : Bytes) (hl : w < 2 ^ 64) :
    uvarint (bs ++ r) = (w, bs.length) := by
  unfold uvarint
  rw [uvarintLoop_varint h r 0 0 (by simpa using hl) (by omega)]
  simp

/-- For a CIDv1 made of the four numbers in front of a digest, `DecodeBlock` looks
at the data exactly if they say git-raw, sha1 and 20 bytes. -/
theorem block_cidv1 (codec mh len : Nat) (b1 b2 b3 digest data : Bytes)
    (h1 : Varint codec b1) (h2 : Varint mh b2) (h3 : Varint len b3)
    (l1 : codec < 2 ^ 64) (l2 : mh < 2 ^ 64) (l3 : len < 2 ^ 64) :
    decodeBlock ⟨1 :: (b1 ++ (b2 ++ (b3 ++ digest))), data⟩ =
      if codec = 0x78 ∧ mh = 0x11 ∧ len = 20 then parseObjectFromBuffer data else .err .badPrefix := by
  have hp : cidPrefix (1 :: (b1 ++ (b2 ++ (b3 ++ digest)))) = ⟨1, codec, mh, len⟩ := by
    unfold cidPrefix
    rw [if_neg (by simp)]
    have h0 : uvarint (1 :: (b1 ++ (b2 ++ (b3 ++ digest)))) = (1, 1) :=
      uvarint_varint (w := 1) (bs := [1]) (.last (by omega)) _ (by omega)
    simp only [h0, List.drop_succ_cons, List.drop_zero, uvarint_varint h1 _ l1, List.drop_left,
      uvarint_varint h2 _ l2, uvarint_varint h3 _ l3]
  unfold decodeBlock
  simp only [hp, gitRaw, mhSha1]
  by_cases hc : codec = 0x78 <;> by_cases hm : mh = 0x11 <;> by_cases hl : len = 20 <;> simp [hc, hm, hl]

theorem varint_small (w : Nat) (bs : Bytes) (h : Varint w bs) (hw : w < 128) : bs = [UInt8.ofNat w] := by
  cases h with
  | last => rfl
  | more hpos => omega

theorem uvarint_small (str : Bytes) (w : Nat) (hw : w < 128) (hpos : 0 < w) (h : (uvarint str).1 = w) :
    (uvarint str).2 = 1 ∧ ∃ r, str = UInt8.ofNat w :: r := by
  unfold uvarint at h ⊢
  cases hu : uvarintLoop 0 0 str with
  | none => rw [hu] at h; simp at h; omega
  | some p =>
    obtain ⟨v, n⟩ := p
    rw [hu] at h
    simp only [Option.getD_some] at h ⊢
    subst h
    obtain ⟨h1, h3, _, w, hv, hw', _, _⟩ := uvarintLoop_some _ _ _ _ _ hu
    simp only [Nat.pow_zero, Nat.mul_one, Nat.zero_add] at hw'
    subst hw'
    have hs := varint_small _ _ hv hw
    rw [Nat.sub_zero] at hs
    have hn : n = 1 := by
      have := congrArg List.length hs
      rw [List.length_take] at this
      simp at this
      omega
    subst hn
    refine ⟨rfl, str.drop 1, ?_⟩
    conv => lhs; rw [← List.take_append_drop 1 str, hs]
    rfl

/-- For CID bytes of any kind: the prefix is accepted exactly if behind the
version number stand the bytes for git-raw, sha1 and 20. -/
theorem block_exact (b : Block) :
    let ok := ∃ v bs digest, v < 2 ^ 64 ∧ Varint v bs ∧ b.cid = bs ++ 0x78 :: 0x11 :: 0x14 :: digest
    (ok → decodeBlock b = parseObjectFromBuffer b.data) ∧ (¬ ok → decodeBlock b = .err .badPrefix) := by
  intro ok
  constructor
  · rintro ⟨v, bs, digest, hv, hbs, hc⟩
    have hp : cidPrefix b.cid = ⟨v, 0x78, 0x11, 20⟩ := by
      rw [hc]
      have hone : ∀ n : Nat, n < 128 → ∀ r, uvarint (UInt8.ofNat n :: r) = (n, 1) := fun n hn r =>
        uvarint_varint (w := n) (bs := [UInt8.ofNat n]) (.last hn) r (by omega)
      have a1 : ∀ r, uvarint (0x78 :: r) = (0x78, 1) := hone 0x78 (by omega)
      have a2 : ∀ r, uvarint (0x11 :: r) = (0x11, 1) := hone 0x11 (by omega)
      have a3 : ∀ r, uvarint (0x14 :: r) = (0x14, 1) := hone 0x14 (by omega)
      unfold cidPrefix
      rw [if_neg ?_]
      · simp only [uvarint_varint hbs _ hv, List.drop_left, a1, a2, a3, List.drop_succ_cons, List.drop_zero]
      · rintro ⟨-, h0, h1⟩
        cases hbs with
        | last hn => simp at h1
        | more hpos _ d hd =>
          simp only [List.cons_append, List.getElem?_cons_zero, Option.some.injEq] at h0
          have := congrArg UInt8.toNat h0
          simp at this
          omega
    unfold decodeBlock
    simp [hp, gitRaw, mhSha1]
  · intro hno
    unfold decodeBlock
    simp only
    split
    · rfl
    · rename_i hp
      exfalso
      apply hno
      simp only [ne_eq, not_or, Decidable.not_not, gitRaw, mhSha1] at hp
      obtain ⟨p1, p2, p3⟩ := hp
      unfold cidPrefix at p1 p2 p3
      split at p1
      · simp at p1
      · rename_i h0
        rw [if_neg h0] at p2 p3
        simp only at p1 p2 p3
        obtain ⟨n1, r1, e1⟩ := uvarint_small _ _ (by omega) (by omega) p1
        rw [n1] at p2 p3
        obtain ⟨n2, r2, e2⟩ := uvarint_small _ _ (by omega) (by omega) p2
        rw [n2] at p3
        obtain ⟨n3, r3, e3⟩ := uvarint_small _ _ (by omega) (by omega) p3
        unfold uvarint at e1 e2 e3
        cases hu : uvarintLoop 0 0 b.cid with
        | none =>
          rw [hu] at e1
          simp only [Option.getD_none, List.drop_zero] at e1
          rw [e1] at hu
          simp [uvarintLoop] at hu
        | some p =>
          obtain ⟨v, n⟩ := p
          obtain ⟨_, _, _, w, hw, hv, _, hlt⟩ := uvarintLoop_some _ _ _ _ _ hu
          rw [hu] at e1 e2 e3
          simp only [Option.getD_some] at e1 e2 e3
          rw [e1] at e2 e3
          simp only [List.drop_succ_cons, List.drop_zero] at e2 e3
          rw [e2] at e3
          simp only [List.drop_succ_cons, List.drop_zero] at e3
          refine ⟨w, b.cid.take n, r3, by simpa using hlt, by simpa using hw, ?_⟩
          have := List.take_append_drop n b.cid
          rw [e1, e2, e3] at this
          exact this.symm

/-- The data is not checked against the hash: any digest will do. -/
theorem block_hash_unchecked (d1 d2 data : Bytes) :
    decodeBlock ⟨1 :: 0x78 :: 0x11 :: 0x14 :: d1, data⟩ = decodeBlock ⟨1 :: 0x78 :: 0x11 :: 0x14 :: d2, data⟩ := by
  have h : ∀ d, decodeBlock ⟨1 :: 0x78 :: 0x11 :: 0x14 :: d, data⟩ = parseObjectFromBuffer data := fun d =>
    (block_exact ⟨1 :: 0x78 :: 0x11 :: 0x14 :: d, data⟩).1 ⟨1, [1], d, by omega, .last (by omega), rfl⟩
  rw [h, h]

/-- `0x55` (raw) takes one byte, `0x12` (sha2-256) as well; `0x1012` takes two. -/
example : Varint 0x55 [0x55] ∧ Varint 0x1012 [0x92, 0x20] :=
  ⟨.last (by omega), .more (n := 0x20) (by omega) (.last (by omega)) 0x12 (by omega)⟩

/-! ## C27 Unknown object types are rejected -/

/-- The four type words. -/
def typeWords : List Bytes := [b!"blob", b!"tree", b!"commit", b!"tag"]

/-- A stream is accepted only if it begins with a type word and a space. -/
theorem type_word (s : Stream) (o : Obj) (h : parseObject s = .ok o) :
    ∃ w ∈ typeWords, ∃ r, s.rest = w ++ SP :: r := by
  rcases parse_inv_ok s o h with ⟨_, s', hr, _⟩ | ⟨_, s', hr, _⟩ | ⟨_, s', hr, _⟩ | ⟨_, s', hr, _⟩
  · exact ⟨_, by simp [typeWords], _, hr⟩
  · exact ⟨_, by simp [typeWords], _, hr⟩
  · exact ⟨_, by simp [typeWords], _, hr⟩
  · exact ⟨_, by simp [typeWords], _, hr⟩

/-- Any other first word is rejected, by `ParseObject` and by `Decode` into any
assembler. -/
theorem type_word_unknown {β : Type} (na : Sink β) (w r : Bytes) (e : Err) (N : Nat) (hw : SP ∉ w)
    (h : w ∉ typeWords) :
    parseObject (σ := Stream) ⟨w ++ SP :: r, e, N⟩ = .err .badType ∧
      decode (σ := Stream) na ⟨w ++ SP :: r, e, N⟩ = .err .badType := by
  have hp : parseObject (σ := Stream) ⟨w ++ SP :: r, e, N⟩ = .err .badType := by
    simp only [typeWords, List.mem_cons, List.not_mem_nil, or_false, not_or] at h
    unfold parseObject
    rw [readType_word _ _ _ _ hw]
    simp only [Res.bind_ok]
    rw [if_neg h.2.1, if_neg h.2.2.1, if_neg h.1, if_neg h.2.2.2]
  exact ⟨hp, by rw [decode_parse, hp]; rfl⟩

/-- Without any space the end of the stream is reported: EOF as unexpected EOF,
other errors as they are. -/
theorem type_word_missing {β : Type} (na : Sink β) (r : Bytes) (e : Err) (N : Nat) (hr : SP ∉ r) :
    let e' := if e = .eof then .unexpectedEof else e
    parseObject (σ := Stream) ⟨r, e, N⟩ = .err e' ∧ decode (σ := Stream) na ⟨r, e, N⟩ = .err e' := by
  have hp : parseObject (σ := Stream) ⟨r, e, N⟩ = .err (if e = .eof then .unexpectedEof else e) := by
    unfold parseObject readType
    have : Stream.readString SP ⟨r, e, N⟩ = .err e := by
      unfold Stream.readString
      rw [(splitAt_none _ _).2 hr]
    simp only [reader_readString, this]
    cases e <;> rfl
  exact ⟨hp, by rw [decode_parse, hp]; rfl⟩

example : b!"Tree" ∉ typeWords ∧ SP ∉ b!"Tree" ∧ b!"" ∉ typeWords := by decide

end Verif.Props
