import Verif.Proofs.AcceptCommit
import Verif.Props.Tree
import Verif.Props.Blob
import Verif.Props.Headers
import Verif.Props.Person

/-!
# Exactly what is accepted: C50 to C53

Each theorem says for every stream whether it is read as an object of the type,
and as which one.
-/

namespace Verif.Props

open Verif Spec

theorem readNum_iff (s s' : Stream) (z : Int) :
    readNum s = .ok (z, s') ↔ ∃ d, SizeField d z ∧ s.rest = d ++ NUL :: s'.rest ∧
      s' = { s with rest := s'.rest } := by
  constructor
  · intro h
    obtain ⟨d, h1, h2, h3, h4, h5⟩ := readNum_ok _ _ _ h
    obtain ⟨h6, h7, h8⟩ := (atoi_iff d z).1 h3
    refine ⟨d, ⟨h2, h6, h7, h8⟩, h1, ?_⟩
    obtain ⟨r', f', n'⟩ := s'
    simp only at h4 h5
    rw [h4, h5]
  · rintro ⟨d, ⟨h2, h6, h7, h8⟩, h1, h3⟩
    have := readNum_signed d s'.rest s.fin s.bufsz z h6 h7 h8
    rw [← h1] at this
    rw [h3]; exact this

/-! ## C50 Blobs and trees -/

/-- A stream is read as a blob exactly if it is `blob SP size NUL` with a size
that is not negative, followed by at least that many bytes; the node is the
canonical frame around these bytes. What follows them, and how the stream ends,
does not matter. -/
theorem blob_accepts (s : Stream) (b : Bytes) :
    parseObject s = .ok (.blob b) ↔ ∃ d content rest, SizeField d content.length ∧
      s.rest = b!"blob " ++ d ++ NUL :: (content ++ rest) ∧ Framed b!"blob" content b := by
  constructor
  · intro h
    obtain ⟨d, content, rest, h1, h2, h3, h4⟩ := blob_canonical s b h
    have hlt : (content.length : Int) < 2 ^ 63 := by
      rcases parse_inv_ok s _ h with ⟨_, _, _, _, _, _, h⟩ | ⟨_, _, _, _, _, _, h⟩ |
        ⟨b', s', hr, _, _, hd, hb⟩ | ⟨_, _, _, _, _, _, h⟩
      · simp at h
      · simp at h
      · unfold decodeBlob at hd
        obtain ⟨⟨z, s1⟩, h5, _⟩ := Res.bind_eq_ok.1 hd
        obtain ⟨d', hrest, hnul, hat, _, _⟩ := readNum_ok _ _ _ h5
        obtain ⟨hs, hlo, hhi⟩ := (atoi_iff d' z).1 hat
        have heq : d ++ NUL :: (content ++ rest) = d' ++ NUL :: s1.rest := by
          rw [hrest, h1] at hr
          simpa using hr
        have h6 := splitAt_notin NUL d (content ++ rest) (signed_nul h2)
        rw [heq, splitAt_notin NUL d' _ hnul] at h6
        simp only [Option.some.injEq, Prod.mk.injEq] at h6
        obtain ⟨rfl, _⟩ := h6
        have h7 := (atoi_iff d' z).2 ⟨hs, hlo, hhi⟩
        obtain ⟨ds, hne, hdig, h8⟩ := h2
        obtain ⟨ds', hne', hdig', h9⟩ := hs
        rcases h8 with ⟨h8, h8'⟩ | ⟨h8, h8'⟩ | ⟨h8, h8'⟩ <;>
        rcases h9 with ⟨h9, h9'⟩ | ⟨h9, h9'⟩ | ⟨h9, h9'⟩ <;> rw [h8] at h9
        · subst h9; omega
        · subst h9
          have := hdig 43 (by simp)
          simp [Digit] at this
        · subst h9
          have := hdig 45 (by simp)
          simp [Digit] at this
        · rw [← h9] at hdig'
          have := hdig' 43 (by simp)
          simp [Digit] at this
        · simp only [List.cons.injEq, true_and] at h9
          subst h9; omega
        · simp at h9
        · rw [← h9] at hdig'
          have := hdig' 45 (by simp)
          simp [Digit] at this
        · simp at h9
        · simp only [List.cons.injEq, true_and] at h9
          subst h9; omega
      · simp at h
    exact ⟨d, content, rest, ⟨signed_nul h2, h2, by omega, hlt⟩, h1, h3⟩
  · rintro ⟨d, content, rest, hd, hs, hf⟩
    obtain ⟨r, e, N⟩ := s
    simp only at hs
    subst hs
    have : b!"blob " ++ d ++ NUL :: (content ++ rest) = b!"blob" ++ SP :: (d ++ NUL :: (content ++ rest)) := by
      simp
    rw [this, parse_blob]
    unfold decodeBlob
    rw [readNum_signed d _ e N _ hd.2.1 hd.2.2.1 hd.2.2.2]
    simp only [Res.bind_ok]
    rw [if_neg (by omega)]
    simp only [reader_readLimited, Stream.readLimited, Int.toNat_natCast]
    rw [if_pos (by simp)]
    simp only [Res.bind_ok, List.take_left, ne_eq, not_true_eq_false, if_false]
    rw [framed_decimal hf]
    simp

example : SizeField b!"+03" (b!"a\x00b").length ∧ Framed b!"blob" b!"a\x00b" b!"blob 3\x00a\x00b" :=
  ⟨⟨by decide, ⟨b!"03", by decide, by simp [Digit], Or.inr (Or.inl ⟨rfl, by decide⟩)⟩, by decide, by decide⟩,
   ⟨b!"3", ⟨by decide, by simp [Digit], by decide, by decide⟩, by decide⟩⟩

/-- When the entries are exhausted. -/
theorem treeTail_iff (b : Bytes) (N : Nat) :
    decodeTreeEntry (σ := Stream) ⟨b, .eof, N⟩ = .err .eof ↔ TreeTail b := by
  constructor
  · intro h
    unfold decodeTreeEntry at h
    simp only [reader_readString, reader_readFull] at h
    rcases Res.bind_eq_err.1 h with h | ⟨⟨x, s1⟩, h1, h⟩
    · exact Or.inl ((Stream.readString_err _ _ _).1 h).1
    obtain ⟨a, rfl, ha, hra, hf1, _⟩ := Stream.readString_ok _ _ _ _ h1
    simp only [chop_concat, Res.bind_ok] at h
    rcases Res.bind_eq_err.1 h with h | ⟨⟨y, s2⟩, h2, h⟩
    · exact Or.inr ⟨a, s1.rest, ha, ((Stream.readString_err _ _ _).1 h).1, Or.inl hra⟩
    obtain ⟨n, rfl, hn, hrn, hf2, _⟩ := Stream.readString_ok _ _ _ _ h2
    simp only [chop_concat, Res.bind_ok] at h
    rcases Res.bind_eq_err.1 h with h | ⟨⟨z, s3⟩, h3, h⟩
    · have hnil : s2.rest = [] := by
        unfold Stream.readFull at h
        split at h
        · simp at h
        · split at h
          · split at h
            · assumption
            · simp at h
          · rename_i hf
            exact absurd (hf2.trans hf1) hf
      refine Or.inr ⟨a, n, ha, hn, Or.inr ?_⟩
      simp only at hra
      rw [hra, hrn, hnil]
    · rcases Res.bind_eq_err.1 h with h | ⟨c, h4, h⟩
      · unfold shaToCid at h
        split at h <;> simp at h
      · simp at h
  · intro h
    unfold decodeTreeEntry
    simp only [reader_readString, reader_readFull]
    rcases h with h | ⟨mode, name, hm, hn, rfl | rfl⟩
    · rw [(Stream.readString_err SP ⟨b, .eof, N⟩ .eof).2 ⟨h, rfl⟩]; rfl
    · rw [Stream.readString_delim _ _ _ _ _ hm]
      simp only [Res.bind_ok, chop_concat]
      rw [(Stream.readString_err NUL ⟨name, .eof, N⟩ .eof).2 ⟨hn, rfl⟩]; rfl
    · rw [Stream.readString_delim _ _ _ _ _ hm]
      simp only [Res.bind_ok, chop_concat]
      rw [Stream.readString_delim _ _ _ _ _ hn]
      simp [Stream.readFull, chop_concat]

/-- A stream is read as a tree with the given rows exactly if it ends with EOF
and is `tree SP size NUL`, any 64-bit number as size, complete entries with
distinct names that are the rows, and possibly an entry cut off before its
hash. -/
theorem tree_accepts (s : Stream) (rows : List (Bytes × TreeEntry)) :
    (∃ t, parseObject s = .ok (.tree t) ∧ t.t = rows) ↔
      s.fin = .eof ∧ ∃ d z es tail, SizeField d z ∧
        s.rest = b!"tree " ++ d ++ NUL :: (treeBody es ++ tail) ∧ EntriesOk es ∧ TreeTail tail ∧
        rows = es.map Entry.row := by
  constructor
  · rintro ⟨t, h, rfl⟩
    obtain ⟨d0, z0, es, tail, h1, h2, h3, h4, _, h6⟩ := tree_decoded s t h
    have hfin : s.fin = .eof ∧ ∃ d z r, SizeField d z ∧ s.rest = b!"tree " ++ d ++ NUL :: r := by
      rcases parse_inv_ok s _ h with ⟨t', s', hr, hf, hb, hd, ht⟩ | ⟨_, _, _, _, _, _, h⟩ |
        ⟨_, _, _, _, _, _, h⟩ | ⟨_, _, _, _, _, _, h⟩
      · refine ⟨by rw [← hf]; exact decodeTree_eof _ _ hd, ?_⟩
        rw [decodeTree_eq] at hd
        obtain ⟨⟨z, s1⟩, h7, _⟩ := Res.bind_eq_ok.1 hd
        obtain ⟨d, hd, hrest, _⟩ := (readNum_iff _ _ _).1 h7
        exact ⟨d, z, s1.rest, hd, by rw [hr, hrest]; simp⟩
      · simp at h
      · simp at h
      · simp at h
    obtain ⟨hfin, d, z, r, h7, h8⟩ := hfin
    have heq : d0 ++ NUL :: (treeBody es ++ tail) = d ++ NUL :: r := by
      rw [h1] at h8; simpa using h8
    have h9 := splitAt_notin NUL d0 (treeBody es ++ tail) (signed_nul h2)
    rw [heq, splitAt_notin NUL d _ h7.1] at h9
    simp only [Option.some.injEq, Prod.mk.injEq] at h9
    obtain ⟨rfl, _⟩ := h9
    exact ⟨hfin, d, z, es, tail, h7, h1, h3, (treeTail_iff _ _).1 h6, h4⟩
  · rintro ⟨hfin, d, z, es, tail, hd, hs, hes, htail, rfl⟩
    obtain ⟨r, e, N⟩ := s
    simp only at hs hfin
    subst hs hfin
    refine ⟨treeOf es, ?_, treeOf_t es⟩
    have : b!"tree " ++ d ++ NUL :: (treeBody es ++ tail) =
        b!"tree" ++ SP :: (d ++ NUL :: (treeBody es ++ tail)) := by simp
    rw [this, parse_tree, decodeTree_eq, readNum_signed d _ _ N z hd.2.1 hd.2.2.1 hd.2.2.2]
    simp only [Res.bind_ok]
    rw [treeRun_entries es _ N hes.each treeInv_empty (by simpa using hes.distinct), treeRun_eq,
      (treeTail_iff tail N).2 htail]
    rfl

example : SizeField b!"-007" (-7) ∧ EntriesOk sampleEntries ∧ TreeTail b!"100644 cut" :=
  ⟨⟨by decide, ⟨b!"007", by decide, by simp [Digit], Or.inr (Or.inr ⟨rfl, by decide⟩)⟩, by decide, by decide⟩,
   sampleEntries_ok, Or.inr ⟨b!"100644", b!"cut", by decide, by decide, Or.inl rfl⟩⟩

/-! ## C51 Tags -/

theorem head_unique {N : Nat} (hN : 2 ≤ N) {b : Bytes} {ls ls' : List Bytes} {m m' : Option Bytes}
    (h : Head N b ls m) (h' : Head N b ls' m') : ls = ls' ∧ m = m' := by
  induction h generalizing ls' m' with
  | done =>
    cases h' with
    | done => exact ⟨rfl, rfl⟩
    | blank _ r h => exact (Line_nil hN h).elim
    | line _ l r _ _ h => exact (Line_nil hN h).elim
  | blank b r h =>
    cases h' with
    | done => exact (Line_nil hN h).elim
    | blank _ r' h2 =>
      obtain ⟨_, rfl⟩ := Line_unique hN h h2
      exact ⟨rfl, rfl⟩
    | line _ l r' _ _ h2 hne =>
      obtain ⟨rfl, _⟩ := Line_unique hN h h2
      exact absurd rfl hne
  | line b l r ls m h hne hr ih =>
    cases h' with
    | done => exact (Line_nil hN h).elim
    | blank _ r' h2 =>
      obtain ⟨rfl, _⟩ := Line_unique hN h h2
      exact absurd rfl hne
    | line _ l' r' _ _ h2 _ hr' =>
      obtain ⟨rfl, rfl⟩ := Line_unique hN h h2
      obtain ⟨rfl, rfl⟩ := ih hr'
      exact ⟨rfl, rfl⟩

/-- A stream is read as the tag `t` exactly if it ends with EOF, is
`tag SP anything NUL`, header lines and possibly a blank line and a message, and
`t` is what they mean. -/
theorem tag_accepts (s : Stream) (hN : 2 ≤ s.bufsz) (t : Tag) :
    parseObject s = .ok (.tag t) ↔
      s.fin = .eof ∧ ∃ d body ls m, NUL ∉ d ∧ s.rest = b!"tag " ++ d ++ NUL :: body ∧
        Head s.bufsz body ls m ∧ TagMeans ls m t := by
  constructor
  · intro h
    rcases parse_inv_ok s _ h with ⟨_, _, _, _, _, _, h⟩ | ⟨_, _, _, _, _, _, h⟩ |
      ⟨_, _, _, _, _, _, h⟩ | ⟨t', s', hr, hf, hb, hd, ht⟩
    · simp at h
    · simp at h
    · simp at h
    · simp only [Obj.tag.injEq] at ht
      subst ht
      have hfin := decodeTag_eof _ (by rw [hb]; exact hN) _ hd
      rw [decodeTag_eq] at hd
      obtain ⟨⟨x, s1⟩, h1, hd⟩ := Res.bind_eq_ok.1 hd
      obtain ⟨d, rfl, hnul, hrest, hf1, hb1⟩ := Stream.readString_ok _ _ _ _ h1
      simp only at hd
      have hb2 : s1.bufsz = s.bufsz := hb1.trans hb
      rw [tagRun_iff _ _ _ (by rw [hb2]; exact hN) (hf1.trans hfin), hb2] at hd
      obtain ⟨ls, m, h2, h3⟩ := hd
      exact ⟨hf ▸ hfin, d, s1.rest, ls, m, hnul, by rw [hr, hrest]; simp, h2, (tagMeans_iff _ _ _).1 h3⟩
  · rintro ⟨hfin, d, body, ls, m, hnul, hs, h2, h3⟩
    obtain ⟨r, e, N⟩ := s
    simp only at hs hfin h2 hN
    subst hs hfin
    have : b!"tag " ++ d ++ NUL :: body = b!"tag" ++ SP :: (d ++ NUL :: body) := by simp
    rw [this, parse_tag, decodeTag_eq, Stream.readString_delim _ _ _ _ _ hnul]
    simp only [Res.bind_ok]
    rw [(tagRun_iff Tag.zero t ⟨body, .eof, N⟩ hN rfl).2 ⟨ls, m, h2, (tagMeans_iff _ _ _).2 h3⟩]
    rfl

/-- A tag's headers may come in any order, with anything unknown between them:
only the lines with each of the four words, in their order, and the message
count. -/
theorem tag_header_order (N : Nat) (hN : 2 ≤ N) (d d' b b' : Bytes) (ls ls' : List Bytes) (m : Option Bytes)
    (t : Tag) (hd : NUL ∉ d) (hd' : NUL ∉ d') (h : Head N b ls m) (h' : Head N b' ls' m)
    (hw : ∀ w ∈ [b!"object ", b!"type ", b!"tag ", b!"tagger "], linesWith w ls = linesWith w ls') :
    parseObject (σ := Stream) ⟨b!"tag " ++ d ++ NUL :: b, .eof, N⟩ = .ok (.tag t) ↔
      parseObject (σ := Stream) ⟨b!"tag " ++ d' ++ NUL :: b', .eof, N⟩ = .ok (.tag t) := by
  have key : ∀ (d d' b b' : Bytes) (ls ls' : List Bytes), NUL ∉ d → NUL ∉ d' → Head N b ls m →
      Head N b' ls' m →
      (∀ w ∈ [b!"object ", b!"type ", b!"tag ", b!"tagger "], linesWith w ls = linesWith w ls') →
      parseObject (σ := Stream) ⟨b!"tag " ++ d ++ NUL :: b, .eof, N⟩ = .ok (.tag t) →
      parseObject (σ := Stream) ⟨b!"tag " ++ d' ++ NUL :: b', .eof, N⟩ = .ok (.tag t) := by
    intro d d' b b' ls ls' hd hd' h h' hw hp
    obtain ⟨_, d1, body, ls1, m1, h1, h2, h3, h4⟩ := (tag_accepts _ hN t).1 hp
    have heq : d ++ NUL :: b = d1 ++ NUL :: body := by simpa using h2
    have h9 := splitAt_notin NUL d b hd
    rw [heq, splitAt_notin NUL d1 _ h1] at h9
    simp only [Option.some.injEq, Prod.mk.injEq] at h9
    obtain ⟨rfl, rfl⟩ := h9
    obtain ⟨rfl, rfl⟩ := head_unique hN h3 h
    refine (tag_accepts _ hN t).2 ⟨rfl, d', b', ls', m1, hd', rfl, h', ?_⟩
    have w1 := hw b!"object " (by simp)
    have w2 := hw b!"type " (by simp)
    have w3 := hw b!"tag " (by simp)
    have w4 := hw b!"tagger " (by simp)
    exact ⟨by simpa only [behind, w1] using h4.object, by simpa only [behind, w2] using h4.typ,
      by simpa only [behind, w3] using h4.tag, by simpa only [w4] using h4.tagger, h4.message⟩
  exact ⟨key d d' b b' ls ls' hd hd' h h' hw,
    key d' d b' b ls' ls hd' hd h' h (fun w h => (hw w h).symm)⟩

example : Head 4096 b!"type a\ntag b\n\nhi" [b!"type a", b!"tag b"] (some b!"hi") ∧
    Head 4096 b!"tag b\r\njunk\ntype a\n\nhi" [b!"tag b", b!"junk", b!"type a"] (some b!"hi") ∧
    (∀ w ∈ [b!"object ", b!"type ", b!"tag ", b!"tagger "],
      linesWith w [b!"type a", b!"tag b"] = linesWith w [b!"tag b", b!"junk", b!"type a"]) ∧
    TagMeans [b!"tag b", b!"junk", b!"type a"] (some b!"hi") ⟨.nil, b!"a", b!"b", ⟨[], [], [], []⟩, b!"hi"⟩ :=
  ⟨.line _ _ _ _ _ (.lf b!"type a" b!"tag b\n\nhi" (by decide) (by decide) (by decide)) (by decide)
     (.line _ _ _ _ _ (.lf b!"tag b" b!"\nhi" (by decide) (by decide) (by decide)) (by decide)
       (.blank _ _ (.lf [] b!"hi" (by decide) (by decide) (by decide)))),
   .line _ _ _ _ _ (.crlf b!"tag b" b!"junk\ntype a\n\nhi" (by decide) (by decide)) (by decide)
     (.line _ _ _ _ _ (.lf b!"junk" b!"type a\n\nhi" (by decide) (by decide) (by decide)) (by decide)
       (.line _ _ _ _ _ (.lf b!"type a" b!"\nhi" (by decide) (by decide) (by decide)) (by decide)
         (.blank _ _ (.lf [] b!"hi" (by decide) (by decide) (by decide))))),
   by decide,
   ⟨⟨[], trivial, rfl⟩, rfl, rfl, ⟨[], trivial, rfl⟩, rfl⟩⟩

/-! ## C52 Commits -/

theorem sigBody_unique {N : Nat} (hN : 2 ≤ N) {b r r' : Bytes} {ls ls' : List Bytes}
    (h : SigBody N b ls r) (h' : SigBody N b ls' r') : ls = ls' ∧ r = r' := by
  induction h generalizing ls' r' with
  | stop b r h =>
    cases h' with
    | stop _ r' h2 => exact ⟨rfl, (Line_unique hN h h2).2⟩
    | more _ l r' _ _ h2 hne => exact absurd (Line_unique hN h h2).1.symm hne
  | more b l r _ ls h hne hr ih =>
    cases h' with
    | stop _ r' h2 => exact absurd (Line_unique hN h h2).1 hne
    | more _ l' r' _ _ h2 _ hr' =>
      obtain ⟨rfl, rfl⟩ := Line_unique hN h h2
      obtain ⟨rfl, rfl⟩ := ih hr'
      exact ⟨rfl, rfl⟩

theorem mergeHead_unique {N : Nat} (hN : 2 ≤ N) {b r r' : Bytes} {ls ls' : List Bytes}
    (h : MergeHead N b ls r) (h' : MergeHead N b ls' r') : ls = ls' ∧ r = r' := by
  induction h generalizing ls' r' with
  | stop b r h =>
    cases h' with
    | stop _ r' h2 => exact ⟨rfl, (Line_unique hN h h2).2⟩
    | more _ l r' _ _ h2 hne => exact absurd (Line_unique hN h h2).1.symm hne
  | more b l r _ ls h hne hr ih =>
    cases h' with
    | stop _ r' h2 => exact absurd (Line_unique hN h h2).1 hne
    | more _ l' r' _ _ h2 _ hr' =>
      obtain ⟨rfl, rfl⟩ := Line_unique hN h h2
      obtain ⟨rfl, rfl⟩ := ih hr'
      exact ⟨rfl, rfl⟩

theorem mergeHead_not_cut {N : Nat} (hN : 2 ≤ N) {b r : Bytes} {ls ls' : List Bytes}
    (h : MergeHead N b ls r) (h' : MergeCut N b ls') : False := by
  induction h generalizing ls' with
  | stop b r h =>
    cases h' with
    | stop => exact Line_nil hN h
    | more _ l r' _ h2 hne => exact absurd (Line_unique hN h h2).1.symm hne
  | more b l r _ ls h hne hr ih =>
    cases h' with
    | stop => exact Line_nil hN h
    | more _ l' r' _ h2 _ hr' =>
      obtain ⟨rfl, rfl⟩ := Line_unique hN h h2
      exact ih hr'

theorem mergeCut_unique {N : Nat} (hN : 2 ≤ N) {b : Bytes} {ls ls' : List Bytes}
    (h : MergeCut N b ls) (h' : MergeCut N b ls') : ls = ls' := by
  induction h generalizing ls' with
  | stop =>
    cases h' with
    | stop => rfl
    | more _ l r' _ h2 hne => exact (Line_nil hN h2).elim
  | more b l r ls h hne hr ih =>
    cases h' with
    | stop => exact (Line_nil hN h).elim
    | more _ l' r' _ h2 _ hr' =>
      obtain ⟨rfl, rfl⟩ := Line_unique hN h h2
      rw [ih hr']

theorem mergeMsg_unique {N : Nat} (hN : 2 ≤ N) {b r r' : Bytes} {ls ls' : List Bytes}
    (h : MergeMsg N b ls r) (h' : MergeMsg N b ls' r') : ls = ls' ∧ r = r' := by
  induction h generalizing ls' r' with
  | stop b l r h hne =>
    cases h' with
    | stop => exact ⟨rfl, rfl⟩
    | more _ l r' _ _ h2 hsp => exact absurd ((Line_unique hN h h2).1 ▸ hsp) hne
  | more b l r _ ls h hsp hr ih =>
    cases h' with
    | stop _ l' r' h2 hne => exact absurd ((Line_unique hN h h2).1 ▸ hsp) hne
    | more _ l' r' _ _ h2 _ hr' =>
      obtain ⟨rfl, rfl⟩ := Line_unique hN h h2
      obtain ⟨rfl, rfl⟩ := ih hr'
      exact ⟨rfl, rfl⟩

theorem sig_not_merge {l x : Bytes} (hg : b!"gpgsig " <+: l) (h : l = b!"mergetag object " ++ x) : False := by
  obtain ⟨y, rfl⟩ := hg
  simp at h

/-- A commit's header blocks are determined by its bytes. -/
theorem blocks_unique {N : Nat} (hN : 2 ≤ N) {b : Bytes} {bs bs' : List Block} {m m' : Option Bytes}
    (h : Blocks N b bs m) (h' : Blocks N b bs' m') : bs = bs' ∧ m = m' := by
  induction h generalizing bs' m' with
  | done =>
    cases h' with
    | done => exact ⟨rfl, rfl⟩
    | blank _ r h => exact (Line_nil hN h).elim
    | line _ l r _ _ h => exact (Line_nil hN h).elim
    | sig _ l r _ _ _ _ h => exact (Line_nil hN h).elim
    | merge _ _ _ _ _ _ _ _ _ h => exact (Line_nil hN h).elim
    | cut _ _ _ _ h => exact (Line_nil hN h).elim
  | blank b r h =>
    cases h' with
    | done => exact (Line_nil hN h).elim
    | blank _ r' h2 =>
      obtain ⟨_, rfl⟩ := Line_unique hN h h2
      exact ⟨rfl, rfl⟩
    | line _ l r' _ _ h2 hne => exact absurd (Line_unique hN h h2).1.symm hne
    | sig _ l r _ _ _ _ h2 hg =>
      rw [← (Line_unique hN h h2).1] at hg
      simp at hg
    | merge _ _ _ _ _ _ _ _ _ h2 => exact absurd (Line_unique hN h h2).1 (by simp)
    | cut _ _ _ _ h2 => exact absurd (Line_unique hN h h2).1 (by simp)
  | line b l r bs m h hne hm hg hr ih =>
    cases h' with
    | done => exact (Line_nil hN h).elim
    | blank _ r' h2 => exact absurd (Line_unique hN h h2).1 hne
    | line _ l' r' _ _ h2 _ _ _ hr' =>
      obtain ⟨rfl, rfl⟩ := Line_unique hN h h2
      obtain ⟨rfl, rfl⟩ := ih hr'
      exact ⟨rfl, rfl⟩
    | sig _ l r _ _ _ _ h2 hg' => exact absurd ((Line_unique hN h h2).1 ▸ hg') hg
    | merge _ _ _ _ _ _ _ _ _ h2 => exact absurd ⟨_, (Line_unique hN h h2).1.symm⟩ hm
    | cut _ _ _ _ h2 => exact absurd ⟨_, (Line_unique hN h h2).1.symm⟩ hm
  | sig b l r r' ls bs m h hg hl hr ih =>
    cases h' with
    | done => exact (Line_nil hN h).elim
    | blank _ r' h2 =>
      rw [(Line_unique hN h h2).1] at hg
      simp at hg
    | line _ l' r' _ _ h2 _ _ hg' => exact absurd ((Line_unique hN h h2).1 ▸ hg) hg'
    | sig _ l' r2 r3 _ _ _ h2 hg' hl' hr' =>
      obtain ⟨rfl, rfl⟩ := Line_unique hN h h2
      obtain ⟨rfl, rfl⟩ := sigBody_unique hN hl hl'
      obtain ⟨rfl, rfl⟩ := ih hr'
      exact ⟨rfl, rfl⟩
    | merge _ _ _ _ _ _ _ _ _ h2 => exact (sig_not_merge hg (Line_unique hN h h2).1).elim
    | cut _ _ _ _ h2 => exact (sig_not_merge hg (Line_unique hN h h2).1).elim
  | merge b x r r1 r2 ls msg bs m h hh hl hr ih =>
    cases h' with
    | done => exact (Line_nil hN h).elim
    | blank _ r' h2 => exact absurd (Line_unique hN h h2).1 (by simp)
    | line _ l' r' _ _ h2 _ hm => exact absurd ⟨_, (Line_unique hN h h2).1⟩ hm
    | sig _ l' r2 r3 _ _ _ h2 hg => exact (sig_not_merge hg (Line_unique hN h h2).1.symm).elim
    | merge _ _ _ _ _ _ _ _ _ h2 hh2 hl2 hr2 =>
      obtain ⟨he, rfl⟩ := Line_unique hN h h2
      have := List.append_cancel_left he
      subst this
      obtain ⟨rfl, rfl⟩ := mergeHead_unique hN hh hh2
      obtain ⟨rfl, rfl⟩ := mergeMsg_unique hN hl hl2
      obtain ⟨rfl, rfl⟩ := ih hr2
      exact ⟨rfl, rfl⟩
    | cut _ _ _ _ h2 hh2 =>
      obtain ⟨he, rfl⟩ := Line_unique hN h h2
      exact (mergeHead_not_cut hN hh hh2).elim
  | cut b x r ls h hh =>
    cases h' with
    | done => exact (Line_nil hN h).elim
    | blank _ r' h2 => exact absurd (Line_unique hN h h2).1 (by simp)
    | line _ l' r' _ _ h2 _ hm => exact absurd ⟨_, (Line_unique hN h h2).1⟩ hm
    | sig _ l' r2 r3 _ _ _ h2 hg => exact (sig_not_merge hg (Line_unique hN h h2).1.symm).elim
    | merge _ _ _ _ _ _ _ _ _ h2 hh2 hl2 hr2 =>
      obtain ⟨he, rfl⟩ := Line_unique hN h h2
      exact (mergeHead_not_cut hN hh2 hh).elim
    | cut _ _ _ _ h2 hh2 =>
      obtain ⟨he, rfl⟩ := Line_unique hN h h2
      have := List.append_cancel_left he
      subst this
      rw [mergeCut_unique hN hh hh2]
      exact ⟨rfl, rfl⟩

/-- A stream is read as the commit `c` exactly if it ends with EOF, is
`commit SP size NUL`, header blocks and possibly a blank line and a message, and
`c` is what they mean. -/
theorem commit_accepts (s : Stream) (hN : 2 ≤ s.bufsz) (c : Commit) :
    parseObject s = .ok (.commit c) ↔
      s.fin = .eof ∧ ∃ d z body bs m, SizeField d z ∧ s.rest = b!"commit " ++ d ++ NUL :: body ∧
        Blocks s.bufsz body bs m ∧ CommitMeans bs m c := by
  constructor
  · intro h
    rcases parse_inv_ok s _ h with ⟨_, _, _, _, _, _, h⟩ | ⟨t', s', hr, hf, hb, hd, ht⟩ |
      ⟨_, _, _, _, _, _, h⟩ | ⟨_, _, _, _, _, _, h⟩
    · simp at h
    · simp only [Obj.commit.injEq] at ht
      subst ht
      have hfin := decodeCommit_eof _ (by rw [hb]; exact hN) _ hd
      rw [decodeCommit_eq] at hd
      obtain ⟨⟨z, s1⟩, h1, hd⟩ := Res.bind_eq_ok.1 hd
      obtain ⟨d, hsz, hrest, hs1⟩ := (readNum_iff _ _ _).1 h1
      simp only at hd
      rw [hs1, hfin, hb, commitRun_iff _ _ _ _ _ (Nat.lt_succ_self _) hN] at hd
      obtain ⟨bs, m, h2, h3⟩ := hd
      exact ⟨hf ▸ hfin, d, z, s1.rest, bs, m, hsz, by rw [hr, hrest]; simp, h2, (commitMeans_iff _ _ _).1 h3⟩
    · simp at h
    · simp at h
  · rintro ⟨hfin, d, z, body, bs, m, hsz, hs, h2, h3⟩
    obtain ⟨r, e, N⟩ := s
    simp only at hs hfin h2 hN
    subst hs hfin
    have : b!"commit " ++ d ++ NUL :: body = b!"commit" ++ SP :: (d ++ NUL :: body) := by simp
    rw [this, parse_commit, decodeCommit_eq, readNum_signed d _ _ N z hsz.2.1 hsz.2.2.1 hsz.2.2.2]
    simp only [Res.bind_ok]
    rw [(commitRun_iff _ Commit.zero c body N (Nat.lt_succ_self _) hN).2
      ⟨bs, m, h2, (commitMeans_iff _ _ _).2 h3⟩]
    rfl

/-- A commit's header lines may come in any order: only the lines with each of the
five words, the unknown lines, the signatures and the merge tags, each in their
order, and the message count. -/
theorem commit_header_order (N : Nat) (hN : 2 ≤ N) (d d' b b' : Bytes) (z z' : Int) (bs bs' : List Block)
    (m : Option Bytes) (c : Commit) (hd : SizeField d z) (hd' : SizeField d' z')
    (h : Blocks N b bs m) (h' : Blocks N b' bs' m)
    (hw : ∀ w ∈ [b!"tree ", b!"parent ", b!"author ", b!"committer ", b!"encoding "],
      linesWith w (plainLines bs) = linesWith w (plainLines bs'))
    (ho : (plainLines bs).filter (fun l => knownHeaders.all fun w => !w.isPrefixOf l) =
      (plainLines bs').filter (fun l => knownHeaders.all fun w => !w.isPrefixOf l))
    (hg : signatures bs = signatures bs') (hm : mergeTags bs = mergeTags bs') :
    parseObject (σ := Stream) ⟨b!"commit " ++ d ++ NUL :: b, .eof, N⟩ = .ok (.commit c) ↔
      parseObject (σ := Stream) ⟨b!"commit " ++ d' ++ NUL :: b', .eof, N⟩ = .ok (.commit c) := by
  have key : ∀ (d d' b b' : Bytes) (z z' : Int) (bs bs' : List Block), SizeField d z → SizeField d' z' →
      Blocks N b bs m → Blocks N b' bs' m →
      (∀ w ∈ [b!"tree ", b!"parent ", b!"author ", b!"committer ", b!"encoding "],
        linesWith w (plainLines bs) = linesWith w (plainLines bs')) →
      ((plainLines bs).filter (fun l => knownHeaders.all fun w => !w.isPrefixOf l) =
        (plainLines bs').filter (fun l => knownHeaders.all fun w => !w.isPrefixOf l)) →
      signatures bs = signatures bs' → mergeTags bs = mergeTags bs' →
      parseObject (σ := Stream) ⟨b!"commit " ++ d ++ NUL :: b, .eof, N⟩ = .ok (.commit c) →
      parseObject (σ := Stream) ⟨b!"commit " ++ d' ++ NUL :: b', .eof, N⟩ = .ok (.commit c) := by
    intro d d' b b' z z' bs bs' hd hd' h h' hw ho hg hm hp
    obtain ⟨_, d1, z1, body, ls1, m1, h1, h2, h3, h4⟩ := (commit_accepts _ hN c).1 hp
    have heq : d ++ NUL :: b = d1 ++ NUL :: body := by simpa using h2
    have h9 := splitAt_notin NUL d b hd.1
    rw [heq, splitAt_notin NUL d1 _ h1.1] at h9
    simp only [Option.some.injEq, Prod.mk.injEq] at h9
    obtain ⟨rfl, rfl⟩ := h9
    obtain ⟨rfl, rfl⟩ := blocks_unique hN h3 h
    refine (commit_accepts _ hN c).2 ⟨rfl, d', z', b', bs', m1, hd', rfl, h', ?_⟩
    have w1 := hw b!"tree " (by simp)
    have w2 := hw b!"parent " (by simp)
    have w3 := hw b!"author " (by simp)
    have w4 := hw b!"committer " (by simp)
    have w5 := hw b!"encoding " (by simp)
    exact ⟨by simpa only [behind, w1] using h4.tree, by simpa only [behind, w2] using h4.parents,
      by simpa only [w3] using h4.author, by simpa only [w4] using h4.committer,
      by simpa only [behind, w5] using h4.encoding, by simpa only [hm] using h4.mergetag,
      by simpa only [hg] using h4.signature, by simpa only [ho] using h4.other, h4.message⟩
  exact ⟨key d d' b b' z z' bs bs' hd hd' h h' hw ho hg hm,
    key d' d b' b z' z bs' bs hd' hd h' h (fun w h => (hw w h).symm) ho.symm hg.symm hm.symm⟩

/-- Two orders of an encoding line, a signature and an unknown line. -/
theorem sampleBlocks : 
    Blocks 4096 b!"encoding x\ngpgsig a\n \n -----END PGP SIGNATURE-----\nodd\n"
      [.line b!"encoding x", .sig [b!" "], .line b!"odd"] none ∧
    Blocks 4096 b!"gpgsig b\n \n -----END PGP SIGNATURE-----\nodd\nencoding x"
      [.sig [b!" "], .line b!"odd", .line b!"encoding x"] none :=
  ⟨.line _ _ _ _ _
     (.lf b!"encoding x" b!"gpgsig a\n \n -----END PGP SIGNATURE-----\nodd\n" (by decide) (by decide) (by decide))
     (by decide) (by decide) (by decide)
     (.sig _ _ _ _ _ _ _
       (.lf b!"gpgsig a" b!" \n -----END PGP SIGNATURE-----\nodd\n" (by decide) (by decide) (by decide))
       (by decide)
       (.more _ _ _ _ _ (.lf b!" " b!" -----END PGP SIGNATURE-----\nodd\n" (by decide) (by decide) (by decide))
         (by decide)
         (.stop _ _ (.lf sigEnd b!"odd\n" (by decide) (by decide) (by decide))))
       (.line _ _ _ _ _ (.lf b!"odd" [] (by decide) (by decide) (by decide))
         (by decide) (by decide) (by decide) .done)),
   .sig _ _ _ _ _ _ _
     (.lf b!"gpgsig b" b!" \n -----END PGP SIGNATURE-----\nodd\nencoding x" (by decide) (by decide) (by decide))
     (by decide)
     (.more _ _ _ _ _ (.lf b!" " b!" -----END PGP SIGNATURE-----\nodd\nencoding x" (by decide) (by decide)
         (by decide)) (by decide)
       (.stop _ _ (.lf sigEnd b!"odd\nencoding x" (by decide) (by decide) (by decide))))
     (.line _ _ _ _ _ (.lf b!"odd" b!"encoding x" (by decide) (by decide) (by decide))
       (by decide) (by decide) (by decide)
       (.line _ _ _ _ _ (.last b!"encoding x" (by decide) (by decide) (by decide))
         (by decide) (by decide) (by decide) .done))⟩

example : (∀ w ∈ [b!"tree ", b!"parent ", b!"author ", b!"committer ", b!"encoding "],
      linesWith w (plainLines [.line b!"encoding x", .sig [b!" "], .line b!"odd"]) =
      linesWith w (plainLines [.sig [b!" "], .line b!"odd", .line b!"encoding x"])) ∧
    CommitMeans [.line b!"encoding x", .sig [b!" "], .line b!"odd"] none
      { Commit.zero with encoding := some b!"x", signature := some b!" \n", other := [b!"odd"] } :=
  ⟨by decide,
   ⟨⟨[], trivial, rfl⟩, trivial, ⟨[], trivial, rfl⟩, ⟨[], trivial, rfl⟩, rfl, trivial,
    ⟨by simp [signatures, SigStart], rfl⟩, by decide, rfl⟩⟩

/-! ## C53 Person lines -/

/-- Which lines are read as a person, and as which. -/
theorem person_accepts (line : Bytes) (p : PersonInfo) :
    parsePersonInfo line = .ok p ↔ PersonRead line p := parsePerson_iff line p

example : PersonRead b!"author   A  B <<a <b> 5" ⟨b!"A  B", b!"<a b", b!"5", []⟩ :=
  ⟨b!"author", [[], [], b!"A", [], b!"B"], [b!"<<a"], b!"<b>", b!"b", [b!"5"], by decide, by decide, by decide,
   by decide, by decide, by decide, by decide, by decide, by decide, by decide, by decide⟩

/-- A line that is not of that form is rejected, never a panic. -/
theorem person_rejects (line : Bytes) (h : ∀ p, ¬ PersonRead line p) :
    parsePersonInfo line = .err .badPerson := by
  have hn : ∀ ps acc e, nameLoop ps acc = .err e → e = .badPerson := by
    intro ps
    induction ps with
    | nil => intro acc e h; simpa [nameLoop, eq_comm] using h
    | cons q qs ih =>
      intro acc e h
      cases q with
      | nil =>
        simp only [nameLoop, List.length_nil, ne_eq, not_true_eq_false, if_false] at h
        split at h <;> exact ih _ _ h
      | cons c cs =>
        simp only [nameLoop, List.length_cons, ne_eq, Nat.add_one_ne_zero, not_false_eq_true, if_true,
          first, Res.bind_ok] at h
        split at h
        · simp at h
        · exact ih _ _ h
  have he : ∀ ps acc e, emailLoop ps acc = .err e → e = .badPerson := by
    intro ps
    induction ps with
    | nil => intro acc e h; simpa [emailLoop, eq_comm] using h
    | cons q qs ih =>
      intro acc e h
      rw [emailLoop_cons] at h
      split at h
      · simp at h
      · exact ih _ _ h
  cases hp : parsePersonInfo line with
  | ok p => exact absurd ((parsePerson_iff _ _).1 hp) (h p)
  | panic => exact absurd hp (parsePersonInfo_ne_panic _)
  | err e =>
    congr 1
    unfold parsePersonInfo at hp
    simp only at hp
    split at hp
    · simpa [eq_comm] using hp
    · rcases Res.bind_eq_err.1 hp with hp | ⟨⟨n, r⟩, h1, hp⟩
      · exact hn _ _ _ hp
      · rcases Res.bind_eq_err.1 hp with hp | ⟨nm, h2, hp⟩
        · simp only at hp
          split at hp
          · rename_i hl
            simp [chop, hl] at hp
          · simp at hp
        · rcases Res.bind_eq_err.1 hp with hp | ⟨⟨em, r2⟩, h3, hp⟩
          · exact he _ _ _ hp
          · simp at hp

example : ∀ p, ¬ PersonRead b!"author A a@b 5 +0000" p := by
  intro p h
  have h := (person_accepts _ _).2 h
  have : parsePersonInfo b!"author A a@b 5 +0000" = .err .badPerson := by decide +kernel
  rw [this] at h
  simp at h

end Verif.Props
