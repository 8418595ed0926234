import Verif.Spec.Given
import Verif.Props.Fits
import Verif.Props.MergeVerify
import Verif.Props.Growth

/-!
# C123 Which files are given back
-/

namespace Verif.Props

open Verif Spec

/-- Decoding and encoding give the file back. -/
def GivenBack (N : Nat) (x : Bytes) : Prop :=
  ∃ o, parseObject (σ := Stream) ⟨x, .eof, N⟩ = .ok o ∧ encObj o = .ok x

/-! ## All files -/

theorem framed_same {w a b x : Bytes} (h : Framed w a x) (h' : Framed w b x) : a = b :=
  withHeader_inj (by rw [← framed_eq h, ← framed_eq h'])

theorem framed_le {w a x : Bytes} (h : Framed w a x) : a.length ≤ x.length := by
  rw [framed_eq h]
  exact withHeader_length _ _

theorem tagFits_enc {N : Nat} {t : Tag} (h : TagFits N t) : encObj (.tag t) = .ok (withHeader b!"tag" (tagWhole t)) :=
  encTag_text t (.inl h.object)

theorem commitFits_enc {N : Nat} {c : Commit} {a k : PersonInfo} (h : CommitFits N c a k) :
    encObj (.commit c) = .ok (withHeader b!"commit" (commitBody c a k)) :=
  encCommit_text c a k (.inl h.tree) h.parents h.authorIs h.committerIs fun t ht => (h.mergetag t ht).object

/-- A file is given back exactly if it is the plain form of an object. -/
theorem given_exact (N : Nat) (hN : 4096 ≤ N) (x : Bytes) (hx : x.length < 2 ^ 63) : GivenBack N x ↔ PlainFile N x := by
  constructor
  · rintro ⟨o, hp, he⟩
    cases o with
    | blob b =>
      obtain ⟨d, content, rest, _, _, h, _⟩ := blob_canonical _ b hp
      have : b = x := Res.ok.inj he
      subst this
      exact .blob content h
    | tree t =>
      obtain ⟨d, z, es, tail, _, _, hok, _, he', _⟩ := tree_decoded _ t hp
      rw [he] at he'
      obtain rfl := Res.ok.inj he'
      exact .tree es hok (framed_withHeader _ _)
    | tag t =>
      have h := (tag_survives_exact N hN t).1 ⟨x, he, hp⟩
      rw [tagFits_enc h] at he
      obtain rfl := Res.ok.inj he
      exact .tag t h (framed_withHeader _ _)
    | commit c =>
      obtain ⟨a, k, h⟩ := commit_survives_fits N hN c ⟨x, he, hp⟩
      rw [commitFits_enc h] at he
      obtain rfl := Res.ok.inj he
      exact .commit c a k h (framed_withHeader _ _)
  · intro h
    cases h with
    | blob content h =>
      have := blob_roundtrip content x [] .eof N (Nat.lt_of_le_of_lt (framed_le h) hx) h
      rw [List.append_nil] at this
      exact ⟨_, this⟩
    | tree es hok h =>
      obtain ⟨t, h1, _, h2⟩ := tree_bytes es hok x h (Nat.lt_of_le_of_lt (framed_le h) hx) N
      exact ⟨_, h1, h2⟩
    | tag t hok h =>
      obtain ⟨out, h1, h2⟩ := (tag_survives_exact N hN t).2 hok
      have h3 := h1
      rw [tagFits_enc hok, ← framed_eq h] at h3
      obtain rfl := Res.ok.inj h3
      exact ⟨_, h2, h1⟩
    | commit c a k hok h =>
      obtain ⟨out, h1, h2⟩ := fits_survives N hN c a k hok (Nat.lt_of_le_of_lt (framed_le h) hx)
      have h3 := h1
      rw [commitFits_enc hok, ← framed_eq h] at h3
      obtain rfl := Res.ok.inj h3
      exact ⟨_, h2, h1⟩

/-! ## Header lines -/

theorem lineFits_wide {N : Nat} {w x : Bytes} (hw : w ∈ [b!" type ", b!" tag ", b!" tagger ", b!"tagger "])
    (h : HeaderLine (N + 1) (w ++ x)) : LineFits N (w ++ x) := by
  have := h.short
  by_cases hl : (w ++ x).length < N
  · exact .inl hl
  · exact .inr ⟨by omega, w, hw, List.prefix_append _ _⟩

/-- A line of the header of a plain file. -/
def PlainLine (N : Nat) (l : Bytes) : Prop := LF ∉ l ∧ LineFits N l ∧ l.getLast? ≠ some CR

theorem plainLine_of {N : Nat} {l : Bytes} (h : HeaderLine N l) : PlainLine N l := ⟨h.noLF, .inl h.short, h.noCR⟩

theorem plainLine_wide {N : Nat} {w x : Bytes} (hw : w ∈ [b!" type ", b!" tag ", b!" tagger ", b!"tagger "])
    (h : HeaderLine (N + 1) (w ++ x)) : PlainLine N (w ++ x) := ⟨h.noLF, lineFits_wide hw h, h.noCR⟩

theorem headLines_sub {ls : List Bytes} (h : ∀ l ∈ ls, LF ∉ l) (m : Option Bytes) :
    ∀ l ∈ headLines (unlines ls ++ messageText m), l ∈ ls := by
  intro l hl
  unfold headLines at hl
  rw [textLines_unlines ls h, List.takeWhile_append] at hl
  split at hl
  · rcases List.mem_append.1 hl with hl | hl
    · exact hl
    · cases m with
      | none => simp [messageText, textLines] at hl
      | some m => simp [messageText, textLines] at hl
  · exact (List.takeWhile_subset _) hl

theorem tag_plain {N : Nat} (hN : 4096 ≤ N) {t : Tag} (h : TagFits N t) : ∀ l ∈ headLines (tagWhole t), PlainLine N l := by
  have key : ∀ l ∈ [b!"object " ++ hex (digest t.object), b!"type " ++ t.typ, b!"tag " ++ t.tag,
      b!"tagger " ++ personText t.tagger], PlainLine N l := by
    intro l hl
    simp only [List.mem_cons, List.not_mem_nil, or_false] at hl
    rcases hl with rfl | rfl | rfl | rfl
    · exact plainLine_of (hex_line hN _ _ (by decide) (by decide) (by decide) (.inl h.object))
    · exact plainLine_of h.typ
    · exact plainLine_of h.tag
    · refine plainLine_wide (by simp) ⟨h.taggerLine.noLF, h.taggerLine.noCR, ?_⟩
      have := h.taggerLine.short
      split at this <;> omega
  exact fun l hl => key l (headLines_sub (fun l hl => (key l hl).1) _ l hl)

theorem sig_isLines {N : Nat} {g : Bytes} (h : SigOk N g) : IsLines g := by
  obtain ⟨l, ls, h1, h2, _⟩ := h
  exact ⟨_, h1, fun x hx => (h2 x hx).noLF⟩

theorem merge_isLines {N : Nat} {t : Tag} (h : MergeFits N t) : IsLines t.message := by
  obtain ⟨ls, h1, h2⟩ := h.message
  exact ⟨_, h1, fun x hx => (h2 x hx).2.noLF⟩

theorem commit_plain {N : Nat} (hN : 4096 ≤ N) {c : Commit} {a k : PersonInfo} (h : CommitFits N c a k) :
    ∀ l ∈ headLines (commitBody c a k), PlainLine N l := by
  have key : ∀ l ∈ headerLines c a k, PlainLine N l := by
    intro l hl
    simp only [headerLines, frontLines, List.mem_append, List.mem_map, List.mem_cons, List.not_mem_nil,
      or_false, Option.mem_toList, Option.map_eq_some_iff, List.mem_flatMap] at hl
    rcases hl with (((rfl | ⟨p, hp, rfl⟩) | (rfl | rfl)) | ⟨e, he, rfl⟩) | ⟨t, ht, hl⟩ | hl | hl
    · exact plainLine_of (hex_line hN _ _ (by decide) (by decide) (by decide) (.inl h.tree))
    · exact plainLine_of (hex_line hN _ _ (by decide) (by decide) (by decide) (.inl (h.parents p hp)))
    · exact plainLine_of h.authorLine
    · exact plainLine_of h.committerLine
    · exact plainLine_of (h.encoding e he)
    · have hm := h.mergetag t ht
      simp only [mergeLines, List.mem_append, List.mem_cons, List.not_mem_nil, or_false] at hl
      rcases hl with (rfl | rfl | rfl | rfl | rfl) | hl
      · exact plainLine_of (hex_line hN _ _ (by decide) (by decide) (by decide) (.inl hm.object))
      · exact plainLine_wide (by simp) hm.typ
      · exact plainLine_wide (by simp) hm.tag
      · exact plainLine_wide (by simp) hm.taggerLine
      · exact plainLine_of ⟨by decide, by decide, by simp; omega⟩
      · obtain ⟨ls, h1, h2⟩ := hm.message
        rw [h1, linesOf_unlines ls fun x hx => (h2 x hx).2.noLF] at hl
        exact plainLine_of (h2 l hl).2
    · cases hs : c.signature with
      | none => rw [hs] at hl; simp [sigLines] at hl
      | some g =>
        rw [hs] at hl
        obtain ⟨x, xs, h1, h2, h3, h4⟩ := h.signature g hs
        simp only [sigLines, List.mem_cons, List.mem_append, List.not_mem_nil, or_false] at hl
        rcases hl with rfl | hl | rfl
        · exact plainLine_of ⟨by decide, by decide, Nat.lt_of_lt_of_le (by decide : sigBegin.length < 4096) hN⟩
        · rw [h1, linesOf_unlines _ fun x hx => (h2 x hx).noLF] at hl
          exact plainLine_of (h2 l hl)
        · exact plainLine_of ⟨by decide, by decide, Nat.lt_of_lt_of_le (by decide : sigEnd.length < 4096) hN⟩
    · exact plainLine_of (h.other l hl).line
  rw [commitBody_lines c a k (fun t ht => merge_isLines (h.mergetag t ht)) (fun g hg => sig_isLines (h.signature g hg))]
  exact fun l hl => key l (headLines_sub (fun l hl => (key l hl).1) (some c.message) l hl)

theorem framed_kind {v v' a b x : Bytes} (h1 : Framed v a x) (h2 : Framed v' b x) (hne : v.take 2 ≠ v'.take 2) (hv : 2 ≤ v.length)
    (hv' : 2 ≤ v'.length) : False := by
  rw [framed_eq h1] at h2
  have := congrArg (List.take 2) (framed_eq h2)
  simp only [withHeader, List.append_assoc, List.take_append_of_le_length hv, List.take_append_of_le_length hv'] at this
  exact hne this

/-- In a commit or tag that is given back no header line is longer than the buffer or
ends in CR, and only those of a tagger, or of a merge tag, may fill the buffer. -/
theorem given_lines (N : Nat) (hN : 4096 ≤ N) (w body x : Bytes) (hw : w = b!"commit" ∨ w = b!"tag") (h : Framed w body x)
    (hx : x.length < 2 ^ 63) (hg : GivenBack N x) : ∀ l ∈ headLines body, LineFits N l ∧ l.getLast? ≠ some CR := by
  cases (given_exact N hN x hx).1 hg with
  | blob content h' => rcases hw with rfl | rfl <;> exact (framed_kind h h' (by decide) (by decide) (by decide)).elim
  | tree es _ h' => rcases hw with rfl | rfl <;> exact (framed_kind h h' (by decide) (by decide) (by decide)).elim
  | tag t hok h' =>
    rcases hw with rfl | rfl
    · exact (framed_kind h h' (by decide) (by decide) (by decide)).elim
    · rw [framed_same h h']
      exact fun l hl => (tag_plain hN hok l hl).2
  | commit c a k hok h' =>
    rcases hw with rfl | rfl
    · rw [framed_same h h']
      exact fun l hl => (commit_plain hN hok l hl).2
    · exact (framed_kind h h' (by decide) (by decide) (by decide)).elim

/-! ## What git makes -/

theorem madeLines_clean (more : Bytes) {g : MadeCommit} (h : g.Ok) : ∀ l ∈ g.lines more, l ≠ [] ∧ LF ∉ l := by
  intro l hl
  have hl : l ∈ madeFront more g ++ g.extra.flatMap (Extra.lines more) ++ sigHeaderLines g.sig := hl
  rcases List.mem_append.1 hl with hl | hl
  · rcases List.mem_append.1 hl with hl | hl
    · exact (plain_front more h [l] (List.mem_map.2 ⟨l, hl, rfl⟩)).2.1 l (by simp)
    · obtain ⟨x, hx, hl⟩ := List.mem_flatMap.1 hl
      exact (extra_field more (h.extra x hx)).2.1 l hl
  · cases hs : g.sig with
    | none => rw [hs] at hl; simp [sigHeaderLines] at hl
    | some s =>
      obtain ⟨f, ls⟩ := s
      rw [hs] at hl
      exact sigLines_clean (h.sig f ls hs).2 l hl

theorem headerLine_le {N M : Nat} (h : N ≤ M) {l : Bytes} (hl : HeaderLine N l) : HeaderLine M l :=
  ⟨hl.noLF, hl.noCR, Nat.lt_of_lt_of_le hl.short h⟩

theorem commitFits_le {N M : Nat} (h : N ≤ M) {c : Commit} {a k : PersonInfo} (hc : CommitFits N c a k) : CommitFits M c a k where
  tree := hc.tree
  parents := hc.parents
  authorIs := hc.authorIs
  authorOk := hc.authorOk
  authorLine := headerLine_le h hc.authorLine
  committerIs := hc.committerIs
  committerOk := hc.committerOk
  committerLine := headerLine_le h hc.committerLine
  encoding := fun e he => headerLine_le h (hc.encoding e he)
  mergetag := fun t ht => by
    have := hc.mergetag t ht
    have h1 : N + 1 ≤ M + 1 := by omega
    refine ⟨this.object, headerLine_le h1 this.typ, headerLine_le h1 this.tag, this.tagger, headerLine_le h1 this.taggerLine, ?_⟩
    obtain ⟨ls, e, hl⟩ := this.message
    exact ⟨ls, e, fun l hm => ⟨(hl l hm).1, headerLine_le h (hl l hm).2⟩⟩
  signature := fun g hg => by
    obtain ⟨l, ls, e, h1, h2⟩ := hc.signature g hg
    exact ⟨l, ls, e, fun x hx => headerLine_le h (h1 x hx), h2⟩
  other := fun l hl => ⟨headerLine_le h (hc.other l hl).line, (hc.other l hl).nonempty, (hc.other l hl).unknown⟩
  afterTag := hc.afterTag

theorem tagFits_le {N M : Nat} (h : N ≤ M) {t : Tag} (ht : TagFits N t) : TagFits M t where
  object := ht.object
  typ := headerLine_le h ht.typ
  tag := headerLine_le h ht.tag
  tagger := ht.tagger
  taggerLine := headerLine_le (by split <;> omega) ht.taggerLine

theorem map_space_noLF (x : Bytes) : ∀ l ∈ (textLines x).map (SP :: ·), LF ∉ l := by
  intro l hl
  obtain ⟨y, hy, rfl⟩ := List.mem_map.1 hl
  exact fun h => (List.mem_cons.1 h).elim (by decide) (textLines_noLF x y hy)

theorem last_space {l : Bytes} (h : (SP :: l).getLast? ≠ some CR) : l.getLast? ≠ some CR := by
  cases l with
  | nil => simp
  | cons c l => simpa [List.getLast?_cons_cons] using h

theorem space_last {l : Bytes} (h : l.getLast? ≠ some CR) : (SP :: l).getLast? ≠ some CR := by
  cases l with
  | nil => decide
  | cons c l => simpa [List.getLast?_cons_cons] using h

/-- The lines of a merged tag fit a larger buffer. -/
theorem merged_lines {N : Nat} (hN : 4096 ≤ N) (more : Bytes) {t : MadeTag} (ho : t.Ok) (h : t.FitsMerged N more) :
    LinesFit (N + 1) ((Extra.mergetag t).lines more) := by
  intro l hl
  rw [mergetag_lines more ho] at hl
  have key : ∀ x ∈ t.lines more, (SP :: x).length < N + 1 ∧ (SP :: x).getLast? ≠ some CR := fun x hx =>
    ⟨Nat.lt_succ_of_le (h.header x hx).1, space_last (h.header x hx).2⟩
  simp only [List.mem_append, List.mem_cons, List.not_mem_nil, or_false] at hl
  rcases hl with (rfl | rfl | rfl | rfl | rfl) | hl
  · have := hex_line (N := N) hN b!"mergetag object " (gitLink t.object) (by decide) (by decide) (by decide)
      (.inl ⟨_, ho.object, rfl⟩)
    rw [digest_gitLink] at this
    exact ⟨Nat.lt_succ_of_lt this.short, this.noCR⟩
  · exact key (b!"type " ++ t.typ) (by simp [MadeTag.lines])
  · exact key (b!"tag " ++ t.name) (by simp [MadeTag.lines])
  · exact key (b!"tagger " ++ t.tagger.text more) (by simp [MadeTag.lines])
  · exact ⟨by simp; omega, by decide⟩
  · obtain ⟨x, hx, rfl⟩ := List.mem_map.1 hl
    exact ⟨Nat.lt_succ_of_lt (h.message x hx).1, space_last (h.message x hx).2⟩

/-- The lines of a commit besides those of merged tags. -/
theorem mem_besides {more : Bytes} {g : MadeCommit} {l : Bytes} :
    l ∈ { g with extra := g.extra.filter fun | .mergetag _ => false | .other _ _ => true }.lines more ↔
      l ∈ madeFront more g ∨ (∃ k v, Extra.other k v ∈ g.extra ∧ l ∈ extraLines k v) ∨ l ∈ sigHeaderLines g.sig := by
  show l ∈ madeFront more g ++ (g.extra.filter _).flatMap (Extra.lines more) ++ sigHeaderLines g.sig ↔ _
  simp only [List.mem_append, List.mem_flatMap, List.mem_filter]
  constructor
  · rintro ((h | ⟨x, ⟨hx, hk⟩, hl⟩) | h)
    · exact .inl h
    · cases x with
      | mergetag t => simp at hk
      | other k v => exact .inr (.inl ⟨k, v, hx, hl⟩)
    · exact .inr (.inr h)
  · rintro (h | ⟨k, v, hx, hl⟩ | h)
    · exact .inl (.inl h)
    · exact .inl (.inr ⟨_, ⟨hx, rfl⟩, hl⟩)
    · exact .inr h

theorem fitsBuffer_lines {N : Nat} (hN : 4096 ≤ N) (more : Bytes) {g : MadeCommit} (ho : g.Ok) (h : g.FitsBuffer N more) :
    LinesFit (N + 1) (g.lines more) := by
  intro l hl
  have wide : ∀ {l : Bytes}, l.length < N ∧ l.getLast? ≠ some CR → l.length < N + 1 ∧ l.getLast? ≠ some CR := fun h =>
    ⟨Nat.lt_succ_of_lt h.1, h.2⟩
  have hl : l ∈ madeFront more g ++ g.extra.flatMap (Extra.lines more) ++ sigHeaderLines g.sig := hl
  rcases List.mem_append.1 hl with hl | hl
  · rcases List.mem_append.1 hl with hl | hl
    · exact wide (h.lines l (mem_besides.2 (.inl hl)))
    · obtain ⟨x, hx, hl⟩ := List.mem_flatMap.1 hl
      cases x with
      | mergetag t => exact merged_lines hN more (ho.extra _ hx) (h.merged t hx) l hl
      | other k v => exact wide (h.lines l (mem_besides.2 (.inr (.inl ⟨k, v, hx, hl⟩))))
  · exact wide (h.lines l (mem_besides.2 (.inr (.inr hl))))

/-- The node of a commit fits the buffer exactly if the commit does, if it fits a
larger one. -/
theorem node_fits {N : Nat} (hN : 4096 ≤ N) (more : Bytes) {g : MadeCommit} (ho : g.Ok) (hr : ReadableSig g.sig) {a k : PersonInfo}
    (hf : LinesFit (N + 1) (g.lines more)) (hc : CommitFits (N + 1) (g.node more) a k) :
    (∃ a k, CommitFits N (g.node more) a k) ↔ g.FitsBuffer N more := by
  have hmem : ∀ t, Extra.mergetag t ∈ g.extra → t.merged more ∈ (g.node more).mergetag := fun t ht =>
    List.mem_filterMap.2 ⟨_, ht, rfl⟩
  have hoth : ∀ k v, Extra.other k v ∈ g.extra → ∀ l ∈ extraLines k v, l ∈ (g.node more).other := fun k v hx l hl =>
    List.mem_flatMap.2 ⟨_, hx, hl⟩
  constructor
  · rintro ⟨a, k, h⟩
    obtain rfl : g.author.person more = a := Option.some.inj h.authorIs
    obtain rfl : g.committer.person more = k := Option.some.inj h.committerIs
    constructor
    · intro t ht
      have hto : t.Ok := ho.extra _ ht
      have hm := h.mergetag _ (hmem t ht)
      refine ⟨?_, ?_⟩
      · intro l hl
        have mk : ∀ x : Bytes, HeaderLine (N + 1) (SP :: x) → (SP :: x).length ≤ N ∧ x.getLast? ≠ some CR := fun x h =>
          ⟨Nat.le_of_lt_succ h.short, last_space h.noCR⟩
        simp only [MadeTag.lines, List.mem_cons, List.not_mem_nil, or_false] at hl
        rcases hl with rfl | rfl | rfl | rfl
        · have := hex_line (N := N) hN b!" object " (gitLink t.object) (by decide) (by decide) (by decide)
            (.inl ⟨_, hto.object, rfl⟩)
          rw [digest_gitLink] at this
          exact mk (b!"object " ++ hex t.object) (headerLine_le (Nat.le_succ N) this)
        · exact mk (b!"type " ++ t.typ) hm.typ
        · exact mk (b!"tag " ++ t.name) hm.tag
        · have := hm.taggerLine
          rw [show (t.merged more).tagger = t.tagger.person more from rfl, made_text more hto.tagger] at this
          exact mk (b!"tagger " ++ t.tagger.text more) this
      · obtain ⟨ls, e, hl⟩ := hm.message
        have e : unlines ((textLines t.msg).map (SP :: ·)) = unlines ls := e
        have e := congrArg linesOf e
        rw [linesOf_unlines _ (map_space_noLF _), linesOf_unlines _ fun l h => (hl l h).2.noLF] at e
        intro l h
        have := (hl (SP :: l) (by rw [← e]; exact List.mem_map.2 ⟨l, h, rfl⟩)).2
        exact ⟨this.short, last_space this.noCR⟩
    · intro l hl
      refine ⟨?_, ?_⟩
      · rcases mem_besides.1 hl with hl | ⟨k, v, hx, hl⟩ | hl
        · simp only [madeFront, List.mem_append, List.mem_map, List.mem_cons, List.not_mem_nil, or_false,
            Option.mem_toList, Option.map_eq_some_iff] at hl
          rcases hl with ((rfl | ⟨p, hp, rfl⟩) | (rfl | rfl)) | ⟨e, he, rfl⟩
          · have := hex_line (N := N) hN b!"tree " (gitLink g.tree) (by decide) (by decide) (by decide) (.inl ⟨_, ho.tree, rfl⟩)
            rw [digest_gitLink] at this
            exact this.short
          · have := hex_line (N := N) hN b!"parent " (gitLink p) (by decide) (by decide) (by decide) (.inl ⟨_, ho.parents p hp, rfl⟩)
            rw [digest_gitLink] at this
            exact this.short
          · rw [← made_text more ho.author]; exact h.authorLine.short
          · rw [← made_text more ho.committer]; exact h.committerLine.short
          · exact (h.encoding e he).short
        · exact (h.other l (hoth k v hx l hl)).line.short
        · cases hs : g.sig with
          | none => rw [hs] at hl; simp [sigHeaderLines] at hl
          | some s =>
            obtain ⟨f, ls⟩ := s
            rw [hs] at hl hr
            obtain ⟨rfl, _⟩ := hr
            simp only [sigHeaderLines, List.mem_cons, List.mem_map, List.mem_append, List.not_mem_nil, or_false] at hl
            rcases hl with rfl | ⟨x, hx | rfl, rfl⟩
            · exact Nat.lt_of_lt_of_le (by decide) hN
            · obtain ⟨y, ys, e, h1, _⟩ := h.signature (unlines (ls.map (SP :: ·))) (by simp [MadeCommit.node, hs])
              have e := congrArg linesOf e
              rw [linesOf_unlines _ fun l h => (h1 l h).noLF, linesOf_unlines _ ?_] at e
              · exact (h1 (SP :: x) (by rw [← e]; exact List.mem_map.2 ⟨x, hx, rfl⟩)).short
              · intro l hl
                obtain ⟨z, hz, rfl⟩ := List.mem_map.1 hl
                exact fun h => (List.mem_cons.1 h).elim (by decide) ((ho.sig _ _ hs).2 z hz)
            · exact Nat.lt_of_lt_of_le (by decide) hN
      · refine (hf l ?_).2
        show l ∈ madeFront more g ++ g.extra.flatMap (Extra.lines more) ++ sigHeaderLines g.sig
        simp only [List.mem_append, List.mem_flatMap]
        rcases mem_besides.1 hl with hl | ⟨k, v, hx, hl⟩ | hl
        · exact .inl (.inl hl)
        · exact .inl (.inr ⟨_, hx, hl⟩)
        · exact .inr hl
  · intro h
    obtain rfl : g.author.person more = a := Option.some.inj hc.authorIs
    obtain rfl : g.committer.person more = k := Option.some.inj hc.committerIs
    have low : ∀ {l M}, HeaderLine M l → l.length < N → HeaderLine N l := fun h h' => ⟨h.noLF, h.noCR, h'⟩
    refine ⟨_, _, { hc with authorLine := ?_, committerLine := ?_, encoding := ?_, mergetag := ?_, signature := ?_, other := ?_ }⟩
    · refine low hc.authorLine ?_
      rw [made_text more ho.author]
      exact (h.lines _ (mem_besides.2 (.inl (by simp [madeFront])))).1
    · refine low hc.committerLine ?_
      rw [made_text more ho.committer]
      exact (h.lines _ (mem_besides.2 (.inl (by simp [madeFront])))).1
    · intro e he
      have he' : g.encoding = some e := he
      exact low (hc.encoding e he) (h.lines _ (mem_besides.2 (.inl (by simp [madeFront, he'])))).1
    · intro t ht
      have hm := hc.mergetag t ht
      obtain ⟨x, hx, hxt⟩ := List.mem_filterMap.1 ht
      cases x with
      | other k v => simp [Extra.merged] at hxt
      | mergetag m =>
        obtain rfl : m.merged more = t := Option.some.inj hxt
        have hmo : m.Ok := ho.extra _ hx
        have hb := h.merged m hx
        have mk : ∀ x ∈ m.lines more, HeaderLine (N + 1 + 1) (SP :: x) → HeaderLine (N + 1) (SP :: x) := fun x hx h =>
          ⟨h.noLF, h.noCR, Nat.lt_succ_of_le (hb.header x hx).1⟩
        refine ⟨hm.object, mk (b!"type " ++ m.typ) (by simp [MadeTag.lines]) hm.typ,
          mk (b!"tag " ++ m.name) (by simp [MadeTag.lines]) hm.tag, hm.tagger, ?_, ?_⟩
        · refine mk (b!"tagger " ++ personText (m.tagger.person more)) ?_ hm.taggerLine
          rw [made_text more hmo.tagger]
          simp [MadeTag.lines]
        · refine ⟨_, rfl, ?_⟩
          intro l hl
          have hLF := map_space_noLF _ l hl
          obtain ⟨y, hy, rfl⟩ := List.mem_map.1 hl
          exact ⟨rfl, hLF, space_last (hb.message y hy).2, (hb.message y hy).1⟩
    · intro s hs
      obtain ⟨l, ls, e, h1, h2⟩ := hc.signature s hs
      refine ⟨l, ls, e, fun x hx => low (h1 x hx) ?_, h2⟩
      cases hsig : g.sig with
      | none => simp [MadeCommit.node, hsig] at hs
      | some fs =>
        obtain ⟨f, zs⟩ := fs
        have hs : unlines (zs.map (SP :: ·)) = s := by simpa [MadeCommit.node, hsig] using hs
        rw [← hs] at e
        have e := congrArg linesOf e
        rw [linesOf_unlines _ fun l h => (h1 l h).noLF, linesOf_unlines _ ?_] at e
        · rw [← e] at hx
          obtain ⟨z, hz, rfl⟩ := List.mem_map.1 hx
          exact (h.lines _ (mem_besides.2 (.inr (.inr (by rw [hsig]; simp [sigHeaderLines, hz]))))).1
        · intro l hl
          obtain ⟨z, hz, rfl⟩ := List.mem_map.1 hl
          exact fun h => (List.mem_cons.1 h).elim (by decide) ((ho.sig _ _ hsig).2 z hz)
    · intro l hl
      refine ⟨low (hc.other l hl).line ?_, (hc.other l hl).nonempty, (hc.other l hl).unknown⟩
      obtain ⟨x, hx, hl⟩ := List.mem_flatMap.1 hl
      cases x with
      | mergetag t => simp [Extra.unknown] at hl
      | other k v => exact (h.lines _ (mem_besides.2 (.inr (.inl ⟨k, v, hx, hl⟩)))).1

/-- A commit that git makes, with lines of any length, is given back exactly if it
fits the buffer, is not signed or signed with PGP with a plain start, has the merged
tags before the other extra headers and, if it is signed, none of these. -/
theorem given_commit (N : Nat) (hN : 4096 ≤ N) (more : Bytes) (g : MadeCommit) (h : g.Ok) (out : Bytes)
    (hout : Framed b!"commit" (g.body more) out) (hlen : out.length < 2 ^ 63) :
    GivenBack N out ↔ g.FitsBuffer N more ∧ ReadableSig g.sig ∧ Reproduced g := by
  have hbl := Nat.lt_of_le_of_lt (framed_le hout) hlen
  have hN1 : 4096 ≤ N + 1 := by omega
  constructor
  · intro hg
    have hls := given_lines N hN _ _ out (.inl rfl) hout hlen hg
    rw [show headLines (g.body more) = g.lines more from headLines_unlines _ _ (madeLines_clean more h)] at hls
    have hf : LinesFit (N + 1) (g.lines more) := by
      intro l hl
      refine ⟨?_, (hls l hl).2⟩
      rcases (hls l hl).1 with h | ⟨h, _⟩ <;> omega
    obtain ⟨h1, h2⟩ := written_commit (N + 1) hN1 more g h hf out hout hbl
    obtain ⟨o, hp, he⟩ := hg
    have hc : ∃ c, o = .commit c := by
      obtain ⟨b, hb, _⟩ := reencode_growth ⟨out, .eof, N⟩ (show 58 ≤ N by omega) o hp out he
      cases o with
      | commit c => exact ⟨c, rfl⟩
      | _ => exact (framed_kind hout hb (by simp [typeWord]) (by decide) (by simp [typeWord])).elim
    obtain ⟨c, rfl⟩ := hc
    obtain ⟨a, k, hc⟩ := commit_survives_fits N hN c ⟨out, he, hp⟩
    have hc1 := commitFits_le (Nat.le_succ N) hc
    have hout' := commitFits_enc hc
    rw [he] at hout'
    have hb : commitBody c a k = g.body more := withHeader_inj (by rw [← Res.ok.inj hout', framed_eq hout])
    obtain ⟨out', e1, e2⟩ := fits_survives (N + 1) hN1 c a k hc1 (by rw [hb]; exact hbl)
    rw [he] at e1
    obtain rfl := Res.ok.inj e1
    have hr : ReadableSig g.sig := Classical.byContradiction fun hn => by
      rw [h2 hn] at e2
      cases e2
    obtain ⟨h1, h3⟩ := h1 hr
    rw [h1] at e2
    have hcn : g.node more = c := by simpa using e2
    subst hcn
    exact ⟨(node_fits hN more h hr hf hc1).1 ⟨a, k, hc⟩, hr, h3.1 he⟩
  · rintro ⟨hfb, hr, hrep⟩
    have hf := fitsBuffer_lines hN more h hfb
    obtain ⟨h1, _⟩ := written_commit (N + 1) hN1 more g h hf out hout hbl
    obtain ⟨h1, h3⟩ := h1 hr
    have he := h3.2 hrep
    obtain ⟨a, k, hc⟩ := commit_survives_fits (N + 1) hN1 _ ⟨out, he, h1⟩
    obtain ⟨a, k, hc⟩ := (node_fits hN more h hr hf hc).2 hfb
    have hout' := commitFits_enc hc
    rw [he] at hout'
    exact (given_exact N hN out hlen).2 (.commit _ a k hc (by rw [Res.ok.inj hout']; exact framed_withHeader _ _))

/-- A tag that git makes, with lines of any length, is given back exactly if its
message is not empty, its header lines are shorter than the buffer and none ends in
CR. -/
theorem given_tag (N : Nat) (hN : 4096 ≤ N) (more : Bytes) (t : MadeTag) (h : t.Ok) (out : Bytes)
    (hout : Framed b!"tag" (t.body more) out) (hlen : out.length < 2 ^ 63) :
    GivenBack N out ↔ t.msg ≠ [] ∧ LinesFit N (t.lines more) := by
  have hLF := tagLines_noLF more h
  constructor
  · intro hg
    have hls := given_lines N hN _ _ out (.inr rfl) hout hlen hg
    rw [show headLines (t.body more) = t.lines more from headLines_unlines _ _ fun l hl => ⟨by
      simp only [MadeTag.lines, List.mem_cons, List.not_mem_nil, or_false] at hl
      rcases hl with rfl | rfl | rfl | rfl <;> simp, hLF l hl⟩] at hls
    have hf : LinesFit (N + 1) (t.lines more) := by
      intro l hl
      refine ⟨?_, (hls l hl).2⟩
      rcases (hls l hl).1 with h | ⟨h, _⟩ <;> omega
    obtain ⟨h1, h2⟩ := written_tag (N + 1) (by omega) more t h hf out hout
    obtain ⟨o, hp, he⟩ := hg
    have hc : ∃ t, o = .tag t := by
      obtain ⟨b, hb, _⟩ := reencode_growth ⟨out, .eof, N⟩ (show 58 ≤ N by omega) o hp out he
      cases o with
      | tag t => exact ⟨t, rfl⟩
      | _ => exact (framed_kind hout hb (by simp [typeWord]) (by decide) (by simp [typeWord])).elim
    obtain ⟨t', rfl⟩ := hc
    have ht := (tag_survives_exact N hN t').1 ⟨out, he, hp⟩
    obtain ⟨out', e1, e2⟩ := (tag_survives_exact (N + 1) (by omega) t').2 (tagFits_le (Nat.le_succ N) ht)
    rw [he] at e1
    obtain rfl := Res.ok.inj e1
    rw [h1] at e2
    have hcn : t.node more = t' := by simpa using e2
    subst hcn
    have hm := h2.1 he
    refine ⟨hm, fun l hl => ⟨?_, (hls l hl).2⟩⟩
    have hobj := hex_line (N := N) hN b!"object " (gitLink t.object) (by decide) (by decide) (by decide) (.inl ht.object)
    rw [digest_gitLink] at hobj
    have htg := ht.taggerLine.short
    rw [if_neg (show (t.node more).message ≠ [] from hm), show (t.node more).tagger = t.tagger.person more from rfl,
      made_text more h.tagger] at htg
    simp only [MadeTag.lines, List.mem_cons, List.not_mem_nil, or_false] at hl
    rcases hl with rfl | rfl | rfl | rfl
    · exact hobj.short
    · exact ht.typ.short
    · exact ht.tag.short
    · exact htg
  · rintro ⟨hm, hf⟩
    obtain ⟨h1, h2⟩ := written_tag N hN more t h hf out hout
    exact ⟨_, h1, h2.2 hm⟩

/-! ## Cases -/

/-- Plain files of each kind, those of sample values. -/
example : PlainFile 4096 b!"blob 3\x00a\nb" ∧ PlainFile 4096 (withHeader b!"tree" (treeBody sampleEntries)) ∧
    PlainFile 4096 (withHeader b!"tag" (tagWhole { sampleTag with tagger := longPerson, message := [] })) := by
  refine ⟨.blob b!"a\nb" ?_, .tree _ sampleEntries_ok (framed_withHeader _ _), .tag _ ?_ (framed_withHeader _ _)⟩
  · have : b!"blob 3\x00a\nb" = withHeader b!"blob" b!"a\nb" := by decide +kernel
    rw [this]
    exact framed_withHeader _ _
  · exact ⟨⟨_, by decide, rfl⟩, headerLine_mk (by decide) (by omega), headerLine_mk (by decide) (by omega),
      longPerson_ok, by decide +kernel, by decide +kernel, by decide +kernel⟩

/-- The same blob with a size that is not in plain digits is read and not given back. -/
example : (∃ o, parseObject (σ := Stream) ⟨b!"blob 03\x00a\nb", .eof, 4096⟩ = .ok o) ∧ ¬ GivenBack 4096 b!"blob 03\x00a\nb" := by
  have h : parseObject (σ := Stream) ⟨b!"blob 03\x00a\nb", .eof, 4096⟩ = .ok (.blob b!"blob 3\x00a\nb") := by decide +kernel
  refine ⟨⟨_, h⟩, ?_⟩
  rintro ⟨o, hp, he⟩
  rw [h] at hp
  obtain rfl := Res.ok.inj hp
  exact absurd (Res.ok.inj he) (by decide)

/-- A tag whose name, as a merged tag, fills a buffer of 4096 bytes. -/
def wideTag : MadeTag := { madeTag with name := List.replicate 4091 65 }

theorem wideTag_ok : wideTag.Ok :=
  ⟨by decide, by decide, fun c hc => by obtain rfl := List.eq_of_mem_replicate hc; decide, madeIdent_ok⟩

/-- A merge of that tag, with the extra header `HG:extra` of the given value. -/
def wideCommit (v : Bytes) : MadeCommit :=
  ⟨List.replicate 20 1, [List.replicate 20 2], madeIdent, madeIdent, none, [.mergetag wideTag, .other b!"HG:extra" v], none,
    b!"Merge\n"⟩

theorem wideCommit_ok (v : Bytes) : (wideCommit v).Ok := by
  refine ⟨by simp [wideCommit], by simp [wideCommit], madeIdent_ok, madeIdent_ok, by simp [wideCommit], ?_, by simp [wideCommit]⟩
  intro x hx
  simp only [wideCommit, List.mem_cons, List.not_mem_nil, or_false] at hx
  rcases hx with rfl | rfl
  · exact wideTag_ok
  · exact ⟨by decide, by decide, by decide, by decide⟩

/-- It is given back, though a line fills the buffer. -/
example : (wideCommit b!"a\nb").FitsBuffer 4096 marks ∧ ¬ LinesFit 4096 ((wideCommit b!"a\nb").lines marks) ∧
    ReadableSig (wideCommit b!"a\nb").sig ∧ Reproduced (wideCommit b!"a\nb") := by
  refine ⟨⟨?_, ?_⟩, ?_, trivial, ⟨[wideTag], [(b!"HG:extra", b!"a\nb")], rfl, fun h => absurd rfl h⟩⟩
  · intro t ht
    obtain rfl : t = wideTag := by simpa [wideCommit] using ht
    exact ⟨by decide +kernel, by decide +kernel⟩
  · unfold LinesFit
    decide +kernel
  · intro h
    have hm : b!" tag " ++ wideTag.name ∈ (Extra.mergetag wideTag).lines marks := by
      rw [mergetag_lines marks wideTag_ok]
      simp
    have := (h (b!" tag " ++ wideTag.name) (List.mem_append.2 (.inl (List.mem_append.2 (.inr
      (List.mem_flatMap.2 ⟨_, List.mem_cons_self, hm⟩)))))).1
    exact absurd this (by decide +kernel)

/-- With an encoding whose line fills the buffer it is not. -/
example : ¬ ({ wideCommit b!"a\nb" with encoding := some (List.replicate 4087 65) } : MadeCommit).FitsBuffer 4096 marks := by
  intro h
  have := (h.lines _ (mem_besides.2 (.inl (List.mem_append.2 (.inr (List.mem_singleton.2 rfl)))))).1
  exact absurd this (by decide +kernel)

example : wideTag.msg ≠ [] ∧ LinesFit 4096 (wideTag.lines marks) := by
  refine ⟨by decide, ?_⟩
  unfold LinesFit
  decide +kernel

end Verif.Props
