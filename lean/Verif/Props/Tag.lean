import Verif.Proofs.Parse

/-!
# Tags: C09, C10 and C13 (tags)
-/

namespace Verif.Props

open Verif Spec

/-! ## Helpers -/

theorem withHeader_inj {w a b : Bytes} (h : withHeader w a = withHeader w b) : a = b := by
  unfold withHeader at h
  simp only [List.append_assoc, List.append_cancel_left_eq, List.cons_append,
    List.nil_append, List.cons.injEq, true_and] at h
  have h1 := splitAt_notin NUL (decimal a.length) a (nul_notin_decimal _)
  have h2 := splitAt_notin NUL (decimal b.length) b (nul_notin_decimal _)
  rw [h, h2] at h1
  simpa using (congrArg (Option.map Prod.snd) h1).symm

theorem parse_tag_nul (d body : Bytes) (e : Err) (N : Nat) (hd : NUL ∉ d) :
    parseObject (σ := Stream) ⟨b!"tag " ++ d ++ NUL :: body, e, N⟩ =
      tagRun Tag.zero ⟨body, e, N⟩ >>= fun t => .ok (.tag t) := by
  have : b!"tag " ++ d ++ NUL :: body = b!"tag" ++ SP :: (d ++ NUL :: body) := by simp
  rw [this, parse_tag, decodeTag_eq, Stream.readString_delim _ _ _ _ _ hd]
  rfl

theorem parse_tag_framed {body out : Bytes} (h : Framed b!"tag" body out) (e : Err) (N : Nat) :
    parseObject (σ := Stream) ⟨out, e, N⟩ =
      tagRun Tag.zero ⟨body, e, N⟩ >>= fun t => .ok (.tag t) := by
  rw [← parse_tag_nul (decimal body.length) body e N (nul_notin_decimal _), framed_decimal h]
  simp

theorem tag_zero : Tag.zero = noTag := rfl

/-- A person, a tag and their well-formedness, used in the examples. -/
def samplePerson : PersonInfo :=
  { name := b!"Ada L", email := b!"ada@example.com", date := b!"1200000000", timezone := b!"+0100" }

/-- Computable form of "`p` occurs in `l`". -/
def occurs (p : Bytes) : Bytes → Bool
  | [] => p.isPrefixOf []
  | c :: cs => p.isPrefixOf (c :: cs) || occurs p cs

theorem not_infix_iff (p l : Bytes) : ¬ p <:+: l ↔ occurs p l = false := by
  induction l with
  | nil =>
    cases p <;> simp [occurs]
  | cons c cs ih =>
    rw [List.infix_cons_iff, not_or, ih, occurs, Bool.or_eq_false_iff,
      ← List.isPrefixOf_iff_prefix, Bool.not_eq_true]

theorem samplePerson_ok : PersonOk samplePerson :=
  ⟨by decide, (not_infix_iff _ _).2 (by decide), (not_infix_iff _ _).2 (by decide),
    (not_infix_iff _ _).2 (by decide), by decide, by decide, by decide⟩

def sampleTag : Tag :=
  { object := gitLink (List.replicate 20 7), typ := b!"commit", tag := b!"v1.0", tagger := samplePerson,
    message := b!"first\r\n\x00release" }

theorem headerLine_mk {N : Nat} {l : Bytes} (h : LF ∉ l ∧ l.getLast? ≠ some CR ∧ l.length < 4096)
    (hN : 4096 ≤ N) : HeaderLine N l := ⟨h.1, h.2.1, by omega⟩

theorem sampleTag_ok (N : Nat) (hN : 4096 ≤ N) : TagOk N sampleTag :=
  ⟨⟨_, by decide, rfl⟩, headerLine_mk (by decide) hN, headerLine_mk (by decide) hN, samplePerson_ok,
    headerLine_mk (by decide) hN⟩

/-! ## C09 Tag round trip -/

/-- Every tag that fits the format is encoded, and decoding the result gives the
tag back; the message is arbitrary, also empty. -/
theorem tag_roundtrip (N : Nat) (hN : 4096 ≤ N) (t : Tag) (h : TagOk N t) :
    ∃ out, encObj (.tag t) = .ok out ∧ parseObject (σ := Stream) ⟨out, .eof, N⟩ = .ok (.tag t) := by
  by_cases hm : t.message = []
  · refine ⟨withHeader b!"tag" (tagItemsText [.object (hex (digest t.object)) (digest t.object),
      .typ t.typ, .tag t.tag, .tagger t.tagger]), ?_, ?_⟩
    · unfold encObj encTag
      simp only [linkSha_git h.object, Res.bind_ok, hm]
      simp [tagItemsText, TagItem.line, unlines, hex_eq, personText_eq]
    · rw [parse_tag_framed (framed_withHeader _ _)]
      have := tagRun_items [.object (hex (digest t.object)) (digest t.object),
        .typ t.typ, .tag t.tag, .tagger t.tagger] Tag.zero [] .eof N hN (by
          intro i hi
          simp only [List.mem_cons, List.not_mem_nil, or_false] at hi
          rcases hi with rfl | rfl | rfl | rfl
          · exact ref_hex _ (digest_length h.object)
          · exact h.typ
          · exact h.tag
          · exact ⟨h.tagger, h.taggerLine⟩)
      rw [List.append_nil] at this
      rw [this, tagRun_nil _ _ (by omega)]
      have ho := gitLink_digest h.object
      rw [← gitLink_eq] at ho
      obtain ⟨o, ty, tg, p, m⟩ := t
      simp only at hm
      subst hm
      simp only [List.foldl, TagItem.apply, Tag.zero, Res.bind_ok]
      simp only at ho
      rw [ho]
  · refine ⟨withHeader b!"tag" (tagBody t), encTag_eq t h.object hm, ?_⟩
    rw [parse_tag_framed (framed_withHeader _ _), tagRun_body t N hN h]
    rfl

example : TagOk 4096 sampleTag ∧ sampleTag.message.length = 15 := ⟨sampleTag_ok 4096 (by omega), by decide⟩

/-! ## C10 Tag re-encoding is byte identical

Full statement: for every well-formed tag object with object, type and tag
headers, an optional tagger and an optional message, encoding the decoded node
gives the input. This is false for tags without a tagger and for tags whose
header ends in a blank line that is followed by nothing. The exact condition is
below. -/

/-- For every well-formed tag object: it decodes to the obvious tag, encoding
that succeeds, and the output is the input if and only if there is a tagger and
the message, if any, is not empty. -/
theorem tag_bytes_partial (N : Nat) (hN : 4096 ≤ N) (sha typ tag : Bytes) (tagger : Option PersonInfo)
    (msg : Option Bytes) (hsha : sha.length = 20) (htyp : HeaderLine N (b!"type " ++ typ))
    (htag : HeaderLine N (b!"tag " ++ tag))
    (hp : ∀ p, tagger = some p → PersonOk p ∧ HeaderLine N (b!"tagger " ++ personText p))
    (out : Bytes) (hout : Framed b!"tag" (gitTagText sha typ tag tagger msg) out) :
    ∃ t out', parseObject (σ := Stream) ⟨out, .eof, N⟩ = .ok (.tag t) ∧
      t = { object := gitLink sha, typ := typ, tag := tag, tagger := tagger.getD ⟨[], [], [], []⟩,
            message := msg.getD [] } ∧
      encObj (.tag t) = .ok out' ∧ (out' = out ↔ tagger ≠ none ∧ msg ≠ some []) := by
  have hlink : IsGitLink (gitLink sha) := ⟨sha, hsha, rfl⟩
  let items : List TagItem := [.object (hex sha) sha, .typ typ, .tag tag] ++ (tagger.map .tagger).toList
  have hok : ∀ i ∈ items, i.Ok N := by
    intro i hi
    simp only [items, List.mem_append, List.mem_cons, List.not_mem_nil, or_false, Option.mem_toList,
      Option.map_eq_some_iff] at hi
    rcases hi with (rfl | rfl | rfl) | ⟨p, h1, rfl⟩
    · exact ref_hex sha hsha
    · exact htyp
    · exact htag
    · exact hp p h1
  have hbody : gitTagText sha typ tag tagger msg = tagItemsText items ++ messageText msg := by
    unfold gitTagText tagItemsText
    congr 2
    cases tagger <;> simp [items, TagItem.line]
  have hdec : parseObject (σ := Stream) ⟨out, .eof, N⟩ = .ok (.tag
      { object := gitLink sha, typ := typ, tag := tag, tagger := tagger.getD ⟨[], [], [], []⟩,
        message := msg.getD [] }) := by
    rw [parse_tag_framed hout, hbody, tagRun_items items _ _ _ N hN hok]
    cases msg with
    | none =>
      simp only [messageText]
      rw [tagRun_nil _ _ (by omega)]
      cases tagger <;> simp [items, TagItem.apply, Tag.zero, PersonInfo.zero]
    | some m =>
      simp only [messageText]
      rw [tagRun_message _ _ N hN]
      cases tagger <;> simp [items, TagItem.apply, Tag.zero, PersonInfo.zero]
  refine ⟨_, withHeader b!"tag" (
      b!"object " ++ hex sha ++ [LF] ++ b!"type " ++ typ ++ [LF] ++ b!"tag " ++ tag ++ [LF]
      ++ b!"tagger " ++ personText (tagger.getD ⟨[], [], [], []⟩) ++ [LF]
      ++ (if msg.getD [] ≠ [] then LF :: msg.getD [] else [])), hdec, rfl, ?_, ?_⟩
  · simp only [encObj, encTag, linkSha_git hlink, Res.bind_ok]
    rw [digest_gitLink]
    simp [hex_eq, personText_eq]
  · rw [framed_eq hout]
    constructor
    · intro h
      have h := withHeader_inj h
      unfold gitTagText at h
      have hl := congrArg List.length h
      cases tagger with
      | none =>
        exfalso
        cases msg with
        | none => simp [unlines, messageText] at hl; try omega
        | some m =>
          by_cases hm : m = []
          · simp [hm, unlines, messageText, personText] at hl; try omega
          · simp [hm, unlines, messageText, personText] at hl; try omega
      | some p =>
        refine ⟨by simp, ?_⟩
        rintro rfl
        simp [unlines, messageText] at hl
        try omega
    · rintro ⟨h1, h2⟩
      congr 1
      unfold gitTagText
      cases tagger with
      | none => exact absurd rfl h1
      | some p =>
        cases msg with
        | none => simp [unlines, messageText]
        | some m =>
          have : m ≠ [] := by rintro rfl; exact h2 rfl
          simp [unlines, this, messageText]

example : Framed b!"tag" (gitTagText (List.replicate 20 7) b!"commit" b!"v1" (some samplePerson) (some b!"hi"))
    (withHeader b!"tag" (gitTagText (List.replicate 20 7) b!"commit" b!"v1" (some samplePerson) (some b!"hi"))) :=
  framed_withHeader _ _

/-- Header lines that the decoder does not know are lost: with any number of them
before the message the tag decodes as if they were not there, so encoding it
again does not give the input. -/
theorem tag_unknown_header_lost (N : Nat) (hN : 4096 ≤ N) (t : Tag) (h : TagOk N t) (ls : List Bytes)
    (hls : ∀ l ∈ ls, (TagItem.unknown l).Ok N) (hne : ls ≠ []) (hm : t.message ≠ []) (out : Bytes)
    (hout : Framed b!"tag" (unlines [b!"object " ++ hex (digest t.object), b!"type " ++ t.typ,
      b!"tag " ++ t.tag, b!"tagger " ++ personText t.tagger] ++ unlines ls ++ LF :: t.message) out) :
    parseObject (σ := Stream) ⟨out, .eof, N⟩ = .ok (.tag t) ∧ encObj (.tag t) ≠ .ok out := by
  have hpre : ∀ T, unlines [b!"object " ++ hex (digest t.object), b!"type " ++ t.typ,
      b!"tag " ++ t.tag, b!"tagger " ++ personText t.tagger] ++ T = tagItemsText
        [.object (hex (digest t.object)) (digest t.object), .typ t.typ, .tag t.tag, .tagger t.tagger] ++ T := by
    intro T; rfl
  constructor
  · rw [parse_tag_framed hout, List.append_assoc, hpre, tagRun_items _ _ _ _ N hN (by
          intro i hi
          simp only [List.mem_cons, List.not_mem_nil, or_false] at hi
          rcases hi with rfl | rfl | rfl | rfl
          · exact ref_hex _ (digest_length h.object)
          · exact h.typ
          · exact h.tag
          · exact ⟨h.tagger, h.taggerLine⟩)]
    have hu : unlines ls = tagItemsText (ls.map .unknown) := by
      unfold tagItemsText
      congr 1
      rw [List.map_map]
      exact (List.map_id' ls).symm
    rw [hu, tagRun_items _ _ _ _ N hN (by
      intro i hi
      obtain ⟨l, hl, rfl⟩ := List.mem_map.1 hi
      exact hls l hl), tagRun_message _ _ N hN]
    have hf : ∀ (l : List Bytes) (x : Tag), (l.map TagItem.unknown).foldl TagItem.apply x = x := by
      intro l
      induction l with
      | nil => intro x; rfl
      | cons a l ih => intro x; simp [TagItem.apply, ih]
    have ho := gitLink_digest h.object
    rw [← gitLink_eq] at ho
    rw [hf]
    simp only [List.foldl, TagItem.apply, Tag.zero, Res.bind_ok, ho]
  · intro he
    simp only [encObj] at he
    rw [encTag_eq t h.object hm, framed_eq hout] at he
    have hb := withHeader_inj (Res.ok.inj he)
    have hl := congrArg List.length hb
    cases ls with
    | nil => exact hne rfl
    | cons l ls =>
      have hl0 := (hls l (by simp)).2.1
      have : 0 < l.length := List.length_pos_iff.2 hl0
      simp [tagBody, unlines] at hl
      omega

example : ∀ l ∈ [b!"x-note a", b!"treat"], (TagItem.unknown l).Ok 4096 := by
  intro l hl
  simp only [List.mem_cons, List.not_mem_nil, or_false] at hl
  rcases hl with rfl | rfl
  · refine ⟨headerLine_mk (by decide) (by omega), by decide, by decide⟩
  · refine ⟨headerLine_mk (by decide) (by omega), by decide, by decide⟩

/-- Counterexamples to the full statement, as bytes. -/
theorem tag_without_tagger_changed :
    (parseObject (σ := Stream) ⟨b!"tag 67\x00" ++ b!"object 0000000000000000000000000000000000000000\n" ++
      b!"type tree\ntag v1\n\nx", .eof, 4096⟩ >>= encObj) =
    .ok (b!"tag 78\x00" ++ b!"object 0000000000000000000000000000000000000000\n" ++
      b!"type tree\ntag v1\ntagger  <>\n\nx") := by
  decide

theorem tag_empty_message_changed :
    (parseObject (σ := Stream) ⟨b!"tag 78\x00" ++ b!"object 0000000000000000000000000000000000000000\n" ++
      b!"type tree\ntag v1\ntagger A <>\n\n", .eof, 4096⟩ >>= encObj) =
    .ok (b!"tag 77\x00" ++ b!"object 0000000000000000000000000000000000000000\n" ++
      b!"type tree\ntag v1\ntagger A <>\n") := by
  decide

/-! ## C13 Messages are preserved verbatim (tags) -/

/-- Whatever the header lines of an accepted tag are (known, unknown, repeated),
the bytes after the first blank line are the message. -/
theorem tag_message_verbatim (N : Nat) (hN : 4096 ≤ N) (d : Bytes) (ls : List Bytes) (msg : Bytes) (t : Tag)
    (hd : NUL ∉ d) (hls : ∀ l ∈ ls, HeaderLine N l ∧ l ≠ [])
    (h : parseObject (σ := Stream) ⟨b!"tag " ++ d ++ NUL :: (unlines ls ++ LF :: msg), .eof, N⟩ = .ok (.tag t)) :
    t.message = msg := by
  rw [parse_tag_nul _ _ _ _ hd] at h
  obtain ⟨t', hrun, ht⟩ := Res.bind_eq_ok.1 h
  simp only [Res.ok.injEq, Obj.tag.injEq] at ht
  subst ht
  clear h
  have h := hrun
  clear hrun
  generalize Tag.zero = t0 at h
  clear hd
  induction ls generalizing t0 with
  | nil =>
    rw [unlines_nil, List.nil_append, tagRun_message _ _ N hN] at h
    simp only [Res.ok.injEq] at h
    rw [← h]
  | cons l ls ih =>
    have hl := hls l (by simp)
    rw [unlines_cons, tagRun_line _ _ _ _ _ (by omega) hl.1] at h
    obtain ⟨⟨t1, s1⟩, h1, h⟩ := Res.bind_eq_ok.1 h
    have : s1 = ⟨unlines ls ++ LF :: msg, .eof, N⟩ := by
      unfold tagLine at h1
      split at h1
      · obtain ⟨_, _, h1⟩ := Res.bind_eq_ok.1 h1
        obtain ⟨_, _, h1⟩ := Res.bind_eq_ok.1 h1
        obtain ⟨_, _, h1⟩ := Res.bind_eq_ok.1 h1
        simp only [Res.ok.injEq, Prod.mk.injEq] at h1
        exact h1.2.symm
      split at h1
      · obtain ⟨_, _, h1⟩ := Res.bind_eq_ok.1 h1
        simp only [Res.ok.injEq, Prod.mk.injEq] at h1
        exact h1.2.symm
      split at h1
      · obtain ⟨_, _, h1⟩ := Res.bind_eq_ok.1 h1
        simp only [Res.ok.injEq, Prod.mk.injEq] at h1
        exact h1.2.symm
      split at h1
      · obtain ⟨_, _, h1⟩ := Res.bind_eq_ok.1 h1
        simp only [Res.ok.injEq, Prod.mk.injEq] at h1
        exact h1.2.symm
      split at h1
      · rename_i h0
        exact absurd (List.length_eq_zero_iff.1 h0) hl.2
      · simp only [Res.ok.injEq, Prod.mk.injEq] at h1
        exact h1.2.symm
    subst this
    exact ih (fun l hl => hls l (by simp [hl])) _ h

example : ∃ t, parseObject (σ := Stream) ⟨b!"tag " ++ b!"?" ++ NUL :: (unlines [b!"tag v1", b!"odd"] ++
    LF :: b!"m\r\n\n\x00"), .eof, 4096⟩ = .ok (.tag t) ∧ t.message.length = 5 := by
  refine ⟨{ noTag with tag := b!"v1", message := b!"m\r\n\n\x00" }, by decide, by decide⟩

end Verif.Props
