import Verif.Spec.Settle
import Verif.Proofs.Lines
import Verif.Props.Encode
import Verif.Props.Person

/-!
# Re-encoding settles (C45)
-/

namespace Verif.Props

open Verif Spec

theorem headerLine_of {N : Nat} {H l : Bytes} (hH : PlainLines N H) (hl : l ++ [LF] <:+: H)
    (hn : LF ∉ l) : HeaderLine N l := by
  refine ⟨hn, fun hcr => hH.noCRLF ?_, hH.short l ((List.prefix_append _ _).isInfix.trans hl) hn⟩
  obtain ⟨l', rfl⟩ := List.getLast?_eq_some_iff.1 hcr
  refine List.IsInfix.trans ⟨l', [], ?_⟩ hl
  simp

theorem line_infix {l : Bytes} {ls : List Bytes} (h : l ∈ ls) : l ++ [LF] <:+: unlines ls := by
  obtain ⟨a, b, rfl⟩ := List.append_of_mem h
  exact ⟨unlines a, unlines b, by simp [unlines]⟩

theorem noLF_append {a b : Bytes} : LF ∉ a ++ b ↔ LF ∉ a ∧ LF ∉ b := by
  simp [List.mem_append, not_or]

theorem person_noLF {p : PersonInfo} (h : PersonLine (LF ∉ ·) p) : LF ∉ personText p := by
  obtain ⟨v, w, z, hw, hP, hp⟩ := h
  have hz : LF ∉ z := (noLF_append.1 hP).2
  obtain ⟨z', hz', h1, h2, h3, e, h4, h5, -⟩ :=
    person_from z w [] z p hw (List.infix_refl _) hp
  have sub : ∀ x : Bytes, x <:+: z' → LF ∉ x := fun x hx hm => hz (hz'.subset (hx.subset hm))
  have he : LF ∉ p.email := fun hm => sub e h4 (h5.subset hm)
  unfold personText
  have hd := sub _ h2
  have ht := sub _ h3
  simp only [List.mem_append, not_or]
  refine ⟨⟨⟨⟨⟨sub _ h1, by decide⟩, he⟩, by decide⟩, ?_⟩, ?_⟩
  · split
    · exact fun h => by cases h
    · simp only [List.mem_cons, not_or]
      exact ⟨by decide, hd⟩
  · split
    · exact fun h => by cases h
    · simp only [List.mem_cons, not_or]
      exact ⟨by decide, ht⟩

theorem person_ok_of {P : Bytes → Prop} {p : PersonInfo} (h : PersonLine P p) (he : Expressible p) : PersonOk p := by
  obtain ⟨v, w, z, hw, hP, hp⟩ := h
  obtain ⟨h1, h2, h3, h4, h5⟩ := parsed_person _ p hp
  exact ⟨h1, h2, he.1, h3, h4, h5, he.2⟩

theorem noPerson_ok : PersonOk ⟨[], [], [], []⟩ :=
  ⟨by decide, (not_infix_iff _ _).2 (by decide), (not_infix_iff _ _).2 (by decide),
    (not_infix_iff _ _).2 (by decide), by decide, by decide, by decide⟩

/-! ## Tags -/

/-- The values of a decoded tag have no line feeds in them. -/
theorem decoded_tag_shape (s : Stream) (hN : 2 ≤ s.bufsz) (t : Tag)
    (h : parseObject s = .ok (.tag t)) : PlainTagLines (LF ∉ ·) t := by
  rcases parse_inv_ok s _ h with ⟨_, _, _, _, _, _, h⟩ | ⟨_, _, _, _, _, _, h⟩ |
    ⟨_, _, _, _, _, _, h⟩ | ⟨t', s', hr, hf, hb, hd, hc⟩
  · cases h
  · cases h
  · cases h
  · cases hc
    rw [decodeTag_eq] at hd
    obtain ⟨⟨z, s1⟩, h1, hd⟩ := Res.bind_eq_ok.1 hd
    have hlt := Stream.readString_lt _ _ _ _ h1
    exact tagRun_shape readLine_noLF _ _ s1 (by rw [hlt.bufsz, hb]; exact hN)
      ⟨⟨Or.inl rfl, Or.inl rfl, Or.inl rfl⟩, Or.inl rfl⟩ hd

/-- Which decoded tags are well formed. -/
theorem decoded_tag_ok (s : Stream) (hN : 2 ≤ s.bufsz) (t : Tag)
    (h : parseObject s = .ok (.tag t)) (ho : t.object ≠ .nil) (hp : Expressible t.tagger)
    (M : Nat) (hl : PlainLines M (tagHead t)) : TagOk M t := by
  have hs := decoded_tag_shape s hN t h
  have line : ∀ l, l ∈ [b!"object " ++ hex (digest t.object), b!"type " ++ t.typ,
      b!"tag " ++ t.tag, b!"tagger " ++ personText t.tagger] → LF ∉ l → HeaderLine M l :=
    fun l hm hn => headerLine_of hl (line_infix hm) hn
  have pok : PersonOk t.tagger := by
    rcases hs.tagger with h | h
    · rw [h]; exact noPerson_ok
    · exact person_ok_of h hp
  have ptext : LF ∉ personText t.tagger := by
    rcases hs.tagger with h | h
    · rw [h]; decide
    · exact person_noLF h
  refine ⟨hs.object.resolve_left ho, line _ (by simp) ?_, line _ (by simp) ?_, pok, line _ (by simp) ?_⟩
  · rcases hs.typ with h | h
    · rw [h]; decide
    · exact h
  · rcases hs.tag with h | h
    · rw [h]; decide
    · exact h
  · exact noLF_append.2 ⟨by decide, ptext⟩

/-! ## Commits -/

/-- The values of a decoded commit have the shape of the format. -/
theorem decoded_commit_shape (s : Stream) (hN : 2 ≤ s.bufsz) (c : Commit)
    (h : parseObject s = .ok (.commit c)) : CommitLines (LF ∉ ·) c := by
  rcases parse_inv_ok s _ h with ⟨_, _, _, _, _, _, h⟩ | ⟨c', s', hr, hf, hb, hd, hc⟩ |
    ⟨_, _, _, _, _, _, h⟩ | ⟨_, _, _, _, _, _, h⟩
  · cases h
  · cases hc
    rw [decodeCommit_eq] at hd
    obtain ⟨⟨z, s1⟩, h1, hd⟩ := Res.bind_eq_ok.1 hd
    have hlt := readNum_lt _ _ _ h1
    exact commitRun_shape readLine_noLF _ _ s1 (by rw [hlt.bufsz, hb]; exact hN)
      ⟨Or.inl rfl, by simp [Commit.zero], by simp [Commit.zero], by simp [Commit.zero],
        by simp [Commit.zero], by simp [Commit.zero], by simp [Commit.zero], by simp [Commit.zero]⟩ hd
  · cases h
  · cases h

theorem mergeTag_ok_of {M : Nat} {t : Tag} (h : MergeTagLines (LF ∉ ·) t) (hp : Expressible t.tagger)
    (hl : PlainLines M (mergeTagText t)) : MergeTagOk M t := by
  have line : ∀ l, l ∈ [b!"mergetag object " ++ hex (digest t.object), b!" type " ++ t.typ,
      b!" tag " ++ t.tag, b!" tagger " ++ personText t.tagger, b!" "] → LF ∉ l → HeaderLine M l :=
    fun l hm hn => headerLine_of hl ((line_infix hm).trans (List.prefix_append _ _).isInfix) hn
  have pok : PersonOk t.tagger := by
    rcases h.tagger with h | h
    · rw [h]; exact noPerson_ok
    · exact person_ok_of h hp
  have ptext : LF ∉ personText t.tagger := by
    rcases h.tagger with h | h
    · rw [h]; decide
    · exact person_noLF h
  obtain ⟨ls, hm, hls⟩ := h.message
  refine ⟨h.object, line _ (by simp) ?_, line _ (by simp) ?_, pok, line _ (by simp) ?_, ls, hm, ?_⟩
  · rcases h.typ with h | h
    · rw [h]; decide
    · exact h
  · rcases h.tag with h | h
    · rw [h]; decide
    · exact h
  · exact noLF_append.2 ⟨by decide, ptext⟩
  · intro l hl'
    refine ⟨(hls l hl').1, headerLine_of hl ?_ (hls l hl').2⟩
    have := line_infix hl'
    rw [← hm] at this
    exact this.trans (List.suffix_append _ _).isInfix

theorem plainLines_part {M : Nat} {H K : Bytes} (h : PlainLines M H) (hk : K <:+: H) : PlainLines M K :=
  ⟨fun hc => h.noCRLF (hc.trans hk), fun l hl hn => h.short l (hl.trans hk) hn⟩

theorem infix_left {a b c : Bytes} (h : a <:+: b) : a <:+: b ++ c := h.trans (List.prefix_append _ _).isInfix
theorem infix_right {a b c : Bytes} (h : a <:+: c) : a <:+: b ++ c := h.trans (List.suffix_append _ _).isInfix

theorem infix_flatMap {α : Type} {f : α → Bytes} {x : α} {l : List α} (h : x ∈ l) : f x <:+: l.flatMap f := by
  obtain ⟨a, b, rfl⟩ := List.append_of_mem h
  exact ⟨a.flatMap f, b.flatMap f, by simp⟩

/-- Which decoded commits are well formed. -/
theorem decoded_commit_ok (s : Stream) (hN : 2 ≤ s.bufsz) (c : Commit) (a k : PersonInfo)
    (h : parseObject s = .ok (.commit c)) (ht : c.tree ≠ .nil) (ha : c.author = some a)
    (hk : c.committer = some k) (hpa : Expressible a) (hpk : Expressible k)
    (hpm : ∀ t ∈ c.mergetag, Expressible t.tagger)
    (hsp : c.mergetag ≠ [] → c.signature = none → ∀ l, c.other.head? = some l → l.head? ≠ some SP)
    (M : Nat) (hl : PlainLines M (commitHead c a k)) : CommitOk M c a k := by
  have hs := decoded_commit_shape s hN c h
  have pers : ∀ l, l ∈ [b!"author " ++ personText a, b!"committer " ++ personText k] → LF ∉ l →
      HeaderLine M l := by
    intro l hm hn
    refine headerLine_of hl ?_ hn
    exact infix_left (infix_left (infix_left (infix_left (infix_right (line_infix hm)))))
  exact {
    tree := hs.tree.resolve_left ht
    parents := hs.parents
    authorIs := ha
    authorOk := person_ok_of (hs.author a ha) hpa
    authorLine := pers _ (by simp) (noLF_append.2 ⟨by decide, person_noLF (hs.author a ha)⟩)
    committerIs := hk
    committerOk := person_ok_of (hs.committer k hk) hpk
    committerLine := pers _ (by simp) (noLF_append.2 ⟨by decide, person_noLF (hs.committer k hk)⟩)
    encoding := by
      intro e he
      refine headerLine_of hl ?_ (hs.encoding e he)
      refine infix_left (infix_left (infix_left (infix_right ?_)))
      rw [he]
      exact line_infix (by simp)
    mergetag := by
      intro t htm
      refine mergeTag_ok_of (hs.mergetag t htm) (hpm t htm) (plainLines_part hl ?_)
      exact infix_left (infix_left (infix_right (infix_flatMap htm)))
    signature := by
      intro g hg
      obtain ⟨l, ls, he, h1, h2, h3⟩ := hs.signature g hg
      refine ⟨l, ls, he, fun x hx => headerLine_of hl ?_ (h1 x hx), h2, h3⟩
      refine infix_left (infix_right ?_)
      rw [hg]
      refine infix_left (infix_right ?_)
      rw [he]
      exact line_infix hx
    other := by
      intro l hm
      obtain ⟨h1, h2, h3⟩ := hs.other l hm
      exact ⟨headerLine_of hl (infix_right (line_infix hm)) h1, h2, h3⟩
    afterTag := hsp }

/-! ## All types -/

/-- What the header text of a decoded object must still satisfy to be read back:
references and persons there, no line ending in CR, no line as long as the buffer,
nothing that would be taken for part of a merge tag. Blobs and trees need
nothing. -/
def Settled (M : Nat) : Obj → Prop
  | .blob _ => True
  | .tree _ => True
  | .tag t => t.object ≠ .nil ∧ Expressible t.tagger ∧ PlainLines M (tagHead t)
  | .commit c => c.tree ≠ .nil ∧ ∃ a k, c.author = some a ∧ c.committer = some k ∧
      Expressible a ∧ Expressible k ∧ (∀ t ∈ c.mergetag, Expressible t.tagger) ∧
      (c.mergetag ≠ [] → c.signature = none → ∀ l, c.other.head? = some l → l.head? ≠ some SP) ∧
      PlainLines M (commitHead c a k)

theorem withHeader_length (w body : Bytes) : body.length ≤ (withHeader w body).length := by
  unfold withHeader
  simp only [List.length_append]
  omega

/-- What the encoder writes for a decoded object decodes to the same object again,
and is written again unchanged: one round of decoding and encoding is a normal
form. Missing from the full promise: the objects that are not `Settled`. -/
theorem settle_partial (s : Stream) (hN : 2 ≤ s.bufsz) (o : Obj) (h : parseObject s = .ok o)
    (M : Nat) (hM : 4096 ≤ M) (hs : Settled M o) (y : Bytes) (hy : encObj o = .ok y)
    (hlen : y.length < 2 ^ 63) :
    ∃ o', parseObject (σ := Stream) ⟨y, .eof, M⟩ = .ok o' ∧ Same o' o ∧ encObj o' = .ok y := by
  cases o with
  | blob b =>
    obtain ⟨_, _, _, -, -, -, h⟩ := blob_canonical s b h
    have := h [] .eof M
    rw [List.append_nil] at this
    cases hy
    exact ⟨_, this, rfl, rfl⟩
  | tree t =>
    obtain ⟨d, z, es, tail, -, -, h1, h2, h3, -⟩ := tree_decoded s t h
    rw [h3] at hy
    cases hy
    obtain ⟨t', h4, h5, h6⟩ := tree_bytes es h1 _ (framed_withHeader _ _)
      (Nat.lt_of_le_of_lt (withHeader_length _ _) hlen) M
    exact ⟨_, h4, h5.trans h2.symm, h6⟩
  | tag t =>
    obtain ⟨h1, h2, h3⟩ := hs
    obtain ⟨out, h4, h5⟩ := tag_roundtrip M hM t (decoded_tag_ok s hN t h h1 h2 M h3)
    rw [h4] at hy
    cases hy
    exact ⟨_, h5, rfl, h4⟩
  | commit c =>
    obtain ⟨h1, a, k, h2, h3, h4, h5, h6, h7, h8⟩ := hs
    have hok := decoded_commit_ok s hN c a k h h1 h2 h3 h4 h5 h6 h7 M h8
    have he := encCommit_eq c a k M hok
    have hy' : encObj (.commit c) = .ok (withHeader b!"commit" (commitBody c a k)) := he
    rw [hy'] at hy
    cases hy
    obtain ⟨out, h9, -, h10⟩ := commit_roundtrip M hM c a k hok
      (Nat.lt_of_le_of_lt (withHeader_length _ _) hlen)
    rw [hy'] at h9
    cases h9
    exact ⟨_, h10, rfl, hy'⟩

/-! ## The exceptions -/

/-- The stream decodes to an object whose encoding decodes to something else, or
not at all. -/
def Unsettled (x : Bytes) : Prop :=
  ∃ o y, parseObject (σ := Stream) ⟨x, .eof, 4096⟩ = .ok o ∧ encObj o = .ok y ∧
    ∀ o', parseObject (σ := Stream) ⟨y, .eof, 4096⟩ = .ok o' → ¬ Same o' o

theorem unsettled_of {x : Bytes} (h : (match parseObject (σ := Stream) ⟨x, .eof, 4096⟩ with
    | .ok (.tag t) =>
      match encObj (.tag t) with
      | .ok y => decide (parseObject (σ := Stream) ⟨y, .eof, 4096⟩ ≠ .ok (.tag t))
      | _ => false
    | .ok (.commit t) =>
      match encObj (.commit t) with
      | .ok y => decide (parseObject (σ := Stream) ⟨y, .eof, 4096⟩ ≠ .ok (.commit t))
      | _ => false
    | _ => false) = true) : Unsettled x := by
  unfold Unsettled
  split at h
  · rename_i t hp
    split at h
    · rename_i y hy
      refine ⟨_, y, hp, hy, fun o' ho hsame => ?_⟩
      have h := of_decide_eq_true h
      cases o' <;> first | (cases hsame; done) | (cases hsame; exact h ho)
    · cases h
  · rename_i t hp
    split at h
    · rename_i y hy
      refine ⟨_, y, hp, hy, fun o' ho hsame => ?_⟩
      have h := of_decide_eq_true h
      cases o' <;> first | (cases hsame; done) | (cases hsame; exact h ho)
    · cases h
  · cases h

/-- Forty hexadecimal digits. -/
def someHash : Bytes := List.replicate 40 97

/-- A commit stream up to the committer. -/
def someHead : Bytes := b!"commit 0\x00tree " ++ someHash ++ b!"\nauthor A <a> 1 +0\ncommitter A <a> 1 +0\n"

/-- A merge tag. -/
def someMerge : Bytes := b!"mergetag object " ++ someHash ++ b!"\n type commit\n tag v\n tagger A <a> 1 +0\n \n m\n"

/-- Each exception is needed. In turn: a type ending in CR, a timezone without a
date, an email with a word beginning with `<`, no object; no tree, and a header
line beginning with a space that the encoder writes right after a merge tag. -/
theorem settle_exceptions :
    Unsettled (b!"tag 0\x00object " ++ someHash ++ b!"\ntype a\r\r\ntag b\ntagger A <a> 1 +0\n") ∧
    Unsettled (b!"tag 0\x00object " ++ someHash ++ b!"\ntype a\ntag b\ntagger A <a>  +01\n") ∧
    Unsettled (b!"tag 0\x00object " ++ someHash ++ b!"\ntype a\ntag b\ntagger A <a <<b> 1 +01\n") ∧
    Unsettled b!"tag 0\x00type a\ntag b\ntagger A <a> 1 +0\n" ∧
    Unsettled b!"commit 0\x00author A <a> 1 +0\ncommitter A <a> 1 +0\n\nx" ∧
    Unsettled (someHead ++ b!" x\n" ++ someMerge ++ b!"\nm") := by
  refine ⟨?_, ?_, ?_, ?_, ?_, ?_⟩ <;> exact unsettled_of (by decide +kernel)

/-- Without the exceptional part the same streams settle. -/
example : ¬ Unsettled (someHead ++ someMerge ++ b!"x\n x\n\nm") ∧
    ¬ Unsettled (b!"tag 0\x00object " ++ someHash ++ b!"\ntype a\r\ntag b\ntagger A <a> 1  +0\n") := by
  have key : ∀ x o y, parseObject (σ := Stream) ⟨x, .eof, 4096⟩ = .ok o → encObj o = .ok y →
      parseObject (σ := Stream) ⟨y, .eof, 4096⟩ = .ok o → ¬ Unsettled x := by
    rintro x o y h1 h2 h3 ⟨o', y', h4, h5, h6⟩
    rw [h1] at h4
    cases h4
    rw [h2] at h5
    cases h5
    exact h6 _ h3 (same_refl _)
  constructor
  · refine key _ (.commit { tree := gitLink (List.replicate 20 0xaa), parents := [], message := b!"m"
                            author := some ⟨b!"A", b!"a", b!"1", b!"+0"⟩
                            committer := some ⟨b!"A", b!"a", b!"1", b!"+0"⟩
                            encoding := none, signature := none
                            mergetag := [{ object := gitLink (List.replicate 20 0xaa), typ := b!"commit"
                                           tag := b!"v", tagger := ⟨b!"A", b!"a", b!"1", b!"+0"⟩
                                           message := b!" m\n" }]
                            other := [b!"x", b!" x"] }) _ (by decide +kernel) rfl (by decide +kernel)
  · refine key _ (.tag { object := gitLink (List.replicate 20 0xaa), typ := b!"a", tag := b!"b"
                         tagger := ⟨b!"A", b!"a", b!"1", b!""⟩, message := [] }) _
      (by decide +kernel) rfl (by decide +kernel)

/-- A decoded tag that meets the conditions. -/
example :
    let t : Tag := { object := gitLink (List.replicate 20 0xaa), typ := b!"a", tag := b!"b",
                     tagger := ⟨b!"A", b!"a", b!"1", b!""⟩, message := [] }
    parseObject (σ := Stream) ⟨b!"tag 0\x00object " ++ someHash ++ b!"\ntype a\r\ntag b\ntagger A <a> 1  +0\n",
      .eof, 4096⟩ = .ok (.tag t) ∧ Settled 4096 (.tag t) := by
  refine ⟨by decide +kernel, (fun h => by cases h), ⟨(not_infix_iff _ _).2 (by decide), by decide⟩,
    (not_infix_iff _ _).2 (by decide), fun l hl _ => ?_⟩
  exact Nat.lt_of_le_of_lt hl.length_le (by decide)

end Verif.Props
