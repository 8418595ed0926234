import Verif.Proofs.SurviveCommit
import Verif.Spec.Survive
import Verif.Props.Blob

/-!
# Which values survive encoding and decoding: C62
-/

namespace Verif.Props

open Verif Spec

/-! ## Trees -/

/-- A tree is encoded and read back with the same rows exactly if it is a list of
entries with distinct names, modes without a space, names without a NUL, and
links to git objects. -/
theorem tree_survives (t : Tree) (N : Nat) (hlen : ∀ out, encObj (.tree t) = .ok out → out.length < 2 ^ 63) :
    (∃ out t', encObj (.tree t) = .ok out ∧ parseObject (σ := Stream) ⟨out, .eof, N⟩ = .ok (.tree t') ∧ t'.t = t.t) ↔
      ∃ es, EntriesOk es ∧ t.t = es.map Entry.row := by
  constructor
  · rintro ⟨out, t', h1, h2, h3⟩
    obtain ⟨_, _, _, es, _, _, _, h4, _, h5⟩ := (tree_accepts ⟨out, .eof, N⟩ t.t).1 ⟨t', h2, h3⟩
    exact ⟨es, h4, h5⟩
  · rintro ⟨es, hes, ht⟩
    refine tree_roundtrip es hes t ht ?_ N
    have henc : encObj (.tree t) = .ok (withHeader b!"tree" (treeBody es)) := by
      simp only [encObj, encTree, ht, encTreeEntries_rows es hes.each, Res.bind_ok]
    have := hlen _ henc
    unfold withHeader at this
    simp at this
    omega

example : ∃ es, EntriesOk es ∧ (treeOf sampleEntries).t = es.map Entry.row := ⟨_, sampleEntries_ok, by decide⟩

/-- A mode with a space does not survive. -/
example (e : TreeEntry) (h : SP ∈ e.mode) (n : Bytes) (t : Tree) (ht : t.t = [(n, e)]) :
    ¬ ∃ es, EntriesOk es ∧ t.t = es.map Entry.row := by
  rintro ⟨es, hes, h'⟩
  rw [ht] at h'
  cases es with
  | nil => simp at h'
  | cons x es =>
    simp only [List.map_cons, List.cons.injEq, Entry.row, Prod.mk.injEq] at h'
    have := (hes.each x (by simp)).1
    rw [h'.1.2] at h
    exact this h

/-! ## Tags -/

theorem gitOrNil_last {xs : List Bytes} {l : Link} (h : LastValue RefLink xs .nil l) : GitOrNil l := by
  rcases lastValue_cases h with h | ⟨x, _, h⟩
  · exact .inr h
  · exact .inl (refLink_git h)

/-- What is written for a tag with a git link. -/
theorem encTag_text (t : Tag) (ht : GitOrNil t.object) : encObj (.tag t) = .ok (withHeader b!"tag" (
      unlines [b!"object " ++ hex (digest t.object), b!"type " ++ t.typ, b!"tag " ++ t.tag,
        b!"tagger " ++ personText t.tagger] ++ messageText (if t.message = [] then none else some t.message))) := by
  simp only [encObj, encTag, linkSha_gitOrNil ht, Res.bind_ok]
  by_cases hm : t.message = [] <;> simp [hm, unlines, hex_eq, personText_eq, messageText]

theorem withHeader_body {w d body body' : Bytes} (hd : NUL ∉ d) (h : withHeader w body = w ++ SP :: (d ++ NUL :: body')) :
    body' = body := by
  unfold withHeader at h
  have h : decimal body.length ++ NUL :: body = d ++ NUL :: body' := by simpa using h
  have h1 := splitAt_notin NUL (decimal body.length) body (nul_notin_decimal _)
  rw [h, splitAt_notin NUL d _ hd] at h1
  simp only [Option.some.injEq, Prod.mk.injEq] at h1
  exact h1.2

theorem head_cons_inv {N : Nat} (hN : 2 ≤ N) {l T : Bytes} {ls : List Bytes} {m : Option Bytes} (hl : LF ∉ l)
    (hs : l.length < N) (hne : trimCR l ≠ []) (h : Head N (l ++ LF :: T) ls m) :
    ∃ ls', ls = trimCR l :: ls' ∧ Head N T ls' m := by
  generalize hb : l ++ LF :: T = b at h
  cases h with
  | done => simp at hb
  | blank _ r h =>
    subst hb
    exact absurd (line_inv hN hl hs h).1.symm hne
  | line _ l' r ls' _ h hne' hr =>
    subst hb
    obtain ⟨rfl, rfl⟩ := line_inv hN hl hs h
    exact ⟨ls', rfl, hr⟩

/-- A tag whose lines fit the buffer is encoded and read back as it was exactly if
it fits the format: a link to a git object, type and name within one line, a
tagger that the format can express. -/
theorem tag_survives (N : Nat) (hN : 4096 ≤ N) (t : Tag) (hs1 : (b!"type " ++ t.typ).length < N)
    (hs2 : (b!"tag " ++ t.tag).length < N) (hs3 : (b!"tagger " ++ personText t.tagger).length < N) :
    (∃ out, encObj (.tag t) = .ok out ∧ parseObject (σ := Stream) ⟨out, .eof, N⟩ = .ok (.tag t)) ↔ TagOk N t := by
  refine ⟨?_, tag_roundtrip N hN t⟩
  rintro ⟨out, henc, hdec⟩
  have hN2 : 2 ≤ N := by omega
  obtain ⟨_, d, body, ls, m, hd, hrest, hh, hm⟩ := (tag_accepts ⟨out, .eof, N⟩ hN2 t).1 hdec
  simp only at hrest hh
  have hobj := gitOrNil_last hm.object
  rw [encTag_text t hobj] at henc
  have hout := Res.ok.inj henc
  rw [hrest] at hout
  have hb := withHeader_body (w := b!"tag") (body' := body) hd (hout.trans (by simp))
  subst hb
  have hls := head_lines hh
  have hLF1 : LF ∉ t.typ := by
    rw [hm.typ]
    rcases getLast?_getD_mem (behind b!"type " ls) [] with h | h
    · rw [h]; simp
    · exact fun hc => (hls _ (behind_mem h)).1 (List.mem_append_right _ hc)
  have hLF2 : LF ∉ t.tag := by
    rw [hm.tag]
    rcases getLast?_getD_mem (behind b!"tag " ls) [] with h | h
    · rw [h]; simp
    · exact fun hc => (hls _ (behind_mem h)).1 (List.mem_append_right _ hc)
  have hLF3 : LF ∉ personText t.tagger := by
    rcases lastValue_cases hm.tagger with h | ⟨x, hx, h⟩
    · rw [h]; decide
    · exact personRead_noLF h (hls x (linesWith_mem hx)).1
  have hl0 := hex_line hN b!"object " t.object (by decide) (by decide) (by decide) hobj
  simp only [unlines_cons, unlines_nil, List.nil_append, List.append_assoc] at hh
  rw [← List.append_assoc, ← List.append_assoc (b!"type "), ← List.append_assoc (b!"tag "),
    ← List.append_assoc (b!"tagger ")] at hh
  have k1 : trimCR (b!"object " ++ hex (digest t.object)) = b!"object " ++ hex (digest t.object) := trimCR_of hl0.noCR
  have k2 : trimCR (b!"type " ++ t.typ) = b!"type " ++ trimCR t.typ := trimCR_append _ _ (by decide)
  have k3 : trimCR (b!"tag " ++ t.tag) = b!"tag " ++ trimCR t.tag := trimCR_append _ _ (by decide)
  have k4 : trimCR (b!"tagger " ++ personText t.tagger) = b!"tagger " ++ trimCR (personText t.tagger) :=
    trimCR_append _ _ (by decide)
  obtain ⟨ls1, rfl, hh1⟩ := head_cons_inv hN2 hl0.noLF hl0.short (by rw [k1]; simp) hh
  obtain ⟨ls2, rfl, hh2⟩ := head_cons_inv hN2 (by simp [hLF1]; decide) hs1 (by rw [k2]; simp) hh1
  obtain ⟨ls3, rfl, hh3⟩ := head_cons_inv hN2 (by simp [hLF2]; decide) hs2 (by rw [k3]; simp) hh2
  obtain ⟨ls4, rfl, hh4⟩ := head_cons_inv hN2 (by simp [hLF3]; decide) hs3 (by rw [k4]; simp) hh3
  obtain rfl : ls4 = [] := by
    generalize hb : messageText _ = b at hh4
    cases hh4 with
    | done => rfl
    | blank => rfl
    | line _ l r _ _ h hne _ =>
      exfalso
      split at hb <;> simp only [messageText] at hb
      · subst hb; exact Line_nil hN2 h
      · subst hb
        have := (line_inv (l := []) hN2 (by simp) (by simp; omega) h).1
        exact hne (by rw [this]; rfl)
  rw [k1, k2, k3, k4] at hm
  have p1 : behind b!"object " [b!"object " ++ hex (digest t.object), b!"type " ++ trimCR t.typ,
      b!"tag " ++ trimCR t.tag, b!"tagger " ++ trimCR (personText t.tagger)] = [hex (digest t.object)] := by
    simp [behind, linesWith]
  have p2 : behind b!"type " [b!"object " ++ hex (digest t.object), b!"type " ++ trimCR t.typ,
      b!"tag " ++ trimCR t.tag, b!"tagger " ++ trimCR (personText t.tagger)] = [trimCR t.typ] := by
    simp [behind, linesWith]
  have p3 : behind b!"tag " [b!"object " ++ hex (digest t.object), b!"type " ++ trimCR t.typ,
      b!"tag " ++ trimCR t.tag, b!"tagger " ++ trimCR (personText t.tagger)] = [trimCR t.tag] := by
    simp [behind, linesWith]
  have p4 : linesWith b!"tagger " [b!"object " ++ hex (digest t.object), b!"type " ++ trimCR t.typ,
      b!"tag " ++ trimCR t.tag, b!"tagger " ++ trimCR (personText t.tagger)] =
      [b!"tagger " ++ trimCR (personText t.tagger)] := by
    simp [linesWith]
  obtain ⟨h1, h2, h3, h4, _⟩ := hm
  rw [p1] at h1
  rw [p2] at h2
  rw [p3] at h3
  rw [p4] at h4
  have h2 : t.typ = trimCR t.typ := by simpa using h2
  have h3 : t.tag = trimCR t.tag := by simpa using h3
  obtain ⟨ys, hys, h1⟩ := h1
  obtain ⟨zs, hzs, h4⟩ := h4
  obtain ⟨y, rfl⟩ : ∃ y, ys = [y] := by
    have := pairs_length hys
    match ys, this with
    | [y], _ => exact ⟨y, rfl⟩
  obtain ⟨z, rfl⟩ : ∃ z, zs = [z] := by
    have := pairs_length hzs
    match zs, this with
    | [z], _ => exact ⟨z, rfl⟩
  have h1 : t.object = y := by simpa using h1
  have h4 : t.tagger = z := by simpa using h4
  have hp : PersonRead (b!"tagger " ++ trimCR (personText t.tagger)) t.tagger := by rw [h4] at hzs ⊢; exact hzs.1
  rw [← k4] at hp
  obtain ⟨hcr, hok⟩ := person_exact (w := b!"tagger") (p := t.tagger) (by decide) (by decide) hp
  exact
    { object := by rw [h1]; exact refLink_git hys.1
      typ := ⟨by simp [hLF1]; decide, (trimCR_eq_iff _).1 (by rw [k2, ← h2]), hs1⟩
      tag := ⟨by simp [hLF2]; decide, (trimCR_eq_iff _).1 (by rw [k3, ← h3]), hs2⟩
      tagger := hok
      taggerLine := ⟨by simp [hLF3]; decide, hcr, hs3⟩ }

example : TagOk 4096 sampleTag ∧ (b!"type " ++ sampleTag.typ).length < 4096 ∧
    (b!"tag " ++ sampleTag.tag).length < 4096 ∧ (b!"tagger " ++ personText sampleTag.tagger).length < 4096 :=
  ⟨sampleTag_ok 4096 (by omega), by decide, by decide, by decide⟩

/-- A name that ends in CR does not survive. -/
example : ¬ TagOk 4096 { sampleTag with tag := b!"v1" ++ [CR] } := fun h => h.tag.noCR (by decide)

/-! ## Commits -/

/-- The lines in front of the merge tags. -/
def frontLines (c : Commit) (a k : PersonInfo) : List Bytes :=
  [b!"tree " ++ hex (digest c.tree)] ++ (c.parents.map fun p => b!"parent " ++ hex (digest p))
    ++ [b!"author " ++ personText a, b!"committer " ++ personText k]
    ++ (c.encoding.map fun e => b!"encoding " ++ e).toList

/-- The lines of the signature. -/
def sigLines : Option Bytes → List Bytes
  | some g => sigBegin :: (linesOf g ++ [sigEnd])
  | none => []

/-- All header lines. -/
def headerLines (c : Commit) (a k : PersonInfo) : List Bytes :=
  frontLines c a k ++ (c.mergetag.flatMap mergeLines ++ (sigLines c.signature ++ c.other))

theorem unlines_app (xs ys : List Bytes) : unlines (xs ++ ys) = unlines xs ++ unlines ys := by simp [unlines]

theorem commitBody_lines (c : Commit) (a k : PersonInfo) (hm : ∀ t ∈ c.mergetag, IsLines t.message)
    (hg : ∀ g, c.signature = some g → IsLines g) :
    commitBody c a k = unlines (headerLines c a k) ++ LF :: c.message := by
  have e1 : c.mergetag.flatMap mergeTagText = unlines (c.mergetag.flatMap mergeLines) := by
    generalize c.mergetag = ts at hm
    induction ts with
    | nil => rfl
    | cons t ts ih =>
      rw [List.flatMap_cons, List.flatMap_cons, unlines_app, mergeLines_text t (hm t (by simp)),
        ih (fun t ht => hm t (by simp [ht]))]
  have e2 : sigText c.signature = unlines (sigLines c.signature) := by
    cases h : c.signature with
    | none => rfl
    | some g =>
      show unlines [sigBegin] ++ g ++ unlines [sigEnd] = unlines ([sigBegin] ++ (linesOf g ++ [sigEnd]))
      rw [unlines_app, unlines_app, ← ((isLines_iff g).1 (hg g h)).1, List.append_assoc]
  have e3 : encodingText c.encoding = unlines (c.encoding.map fun e => b!"encoding " ++ e).toList := by
    cases c.encoding <;> rfl
  unfold commitBody headerLines frontLines
  rw [e1, e2, e3]
  simp only [unlines_app, List.append_assoc]
  simp [unlines]

theorem header_fit {N : Nat} {H : List Bytes} (hs : ShortLines N (unlines H ++ [LF])) (h : ∀ l ∈ H, LF ∉ l) :
    Fit N H := by
  intro l hl
  refine ⟨h l hl, ?_⟩
  obtain ⟨A, B, rfl⟩ := List.append_of_mem hl
  refine hs (unlines A) l (LF :: (unlines B ++ [LF])) ?_ (h l hl)
  rw [unlines_app, List.append_assoc, unlines_cons]

/-- The words in front of the merge tags. -/
def frontWords : List Bytes := [b!"tree ", b!"parent ", b!"author ", b!"committer ", b!"encoding "]

theorem front_word {c : Commit} {a k : PersonInfo} {l : Bytes} (h : l ∈ (frontLines c a k).map trimCR) :
    ∃ w ∈ frontWords, w <+: l := by
  obtain ⟨l, hl, rfl⟩ := List.mem_map.1 h
  have key : ∀ w x : Bytes, w ∈ frontWords → l = w ++ x → ∃ w ∈ frontWords, w <+: trimCR l := by
    intro w x hw hl
    refine ⟨w, hw, ?_⟩
    have : w.getLast? ≠ some CR := by
      simp only [frontWords, List.mem_cons, List.not_mem_nil, or_false] at hw
      rcases hw with rfl | rfl | rfl | rfl | rfl <;> decide
    rw [hl, trimCR_append w x this]
    exact List.prefix_append _ _
  simp only [frontLines, List.mem_append, List.mem_cons, List.not_mem_nil, or_false, List.mem_map,
    Option.mem_toList, Option.map_eq_some_iff] at hl
  rcases hl with ((rfl | ⟨p, _, rfl⟩) | rfl | rfl) | ⟨e, _, rfl⟩
  · exact key _ _ (by simp [frontWords]) rfl
  · exact key _ _ (by simp [frontWords]) rfl
  · exact key _ _ (by simp [frontWords]) rfl
  · exact key _ _ (by simp [frontWords]) rfl
  · exact key _ _ (by simp [frontWords]) rfl

theorem prefix_clash {v w l : Bytes} (hv : v <+: l) (hw : w <+: l) : v <+: w ∨ w <+: v :=
  List.prefix_or_prefix_of_prefix hv hw

theorem linesWith_append (w : Bytes) (xs ys : List Bytes) :
    linesWith w (xs ++ ys) = linesWith w xs ++ linesWith w ys := by simp [linesWith]

theorem linesWith_nil {w : Bytes} {xs : List Bytes} (h : ∀ l ∈ xs, ¬ w <+: l) : linesWith w xs = [] := by
  refine List.filter_eq_nil_iff.2 fun l hl hp => h l hl (List.isPrefixOf_iff_prefix.1 hp)

theorem front_map (c : Commit) (a k : PersonInfo) : (frontLines c a k).map trimCR =
    [b!"tree " ++ trimCR (hex (digest c.tree))] ++ (c.parents.map fun p => b!"parent " ++ trimCR (hex (digest p)))
      ++ [b!"author " ++ trimCR (personText a), b!"committer " ++ trimCR (personText k)]
      ++ (c.encoding.map fun e => b!"encoding " ++ trimCR e).toList := by
  have key : ∀ w ∈ frontWords, ∀ x, trimCR (w ++ x) = w ++ trimCR x := by
    intro w hw x
    refine trimCR_append w x ?_
    simp only [frontWords, List.mem_cons, List.not_mem_nil, or_false] at hw
    rcases hw with rfl | rfl | rfl | rfl | rfl <;> decide
  unfold frontLines
  simp only [List.map_append, List.map_cons, List.map_nil, List.map_map]
  rw [key b!"tree " (by simp [frontWords]), key b!"author " (by simp [frontWords]),
    key b!"committer " (by simp [frontWords])]
  have e1 : (trimCR ∘ fun p => b!"parent " ++ hex (digest p)) = fun p => b!"parent " ++ trimCR (hex (digest p)) := by
    funext p; exact key b!"parent " (by simp [frontWords]) _
  have e2 : (c.encoding.map fun e => b!"encoding " ++ e).toList.map trimCR =
      (c.encoding.map fun e => b!"encoding " ++ trimCR e).toList := by
    cases c.encoding with
    | none => rfl
    | some e =>
      simp only [Option.map_some, Option.toList_some, List.map_cons, List.map_nil]
      rw [key b!"encoding " (by simp [frontWords])]
  rw [e1, e2]

theorem linesWith_parents (w : Bytes) (hw : ¬ w <+: b!"parent ") (hw' : ¬ b!"parent " <+: w) (f : Link → Bytes)
    (ps : List Link) : linesWith w (ps.map fun p => b!"parent " ++ f p) = [] := by
  refine linesWith_nil fun l hl hp => ?_
  obtain ⟨p, _, rfl⟩ := List.mem_map.1 hl
  rcases prefix_clash hp (List.prefix_append b!"parent " (f p)) with h | h
  · exact hw h
  · exact hw' h

/-- The author, committer and encoding lines. -/
theorem front_lines (c : Commit) (a k : PersonInfo) (R : List Bytes)
    (hR : ∀ l ∈ R, ∀ w ∈ frontWords, ¬ w <+: l) :
    linesWith b!"author " ((frontLines c a k).map trimCR ++ R) = [b!"author " ++ trimCR (personText a)] ∧
    linesWith b!"committer " ((frontLines c a k).map trimCR ++ R) = [b!"committer " ++ trimCR (personText k)] ∧
    linesWith b!"encoding " ((frontLines c a k).map trimCR ++ R) =
      (c.encoding.map fun e => b!"encoding " ++ trimCR e).toList := by
  have hn : ∀ w ∈ frontWords, linesWith w R = [] := fun w hw => linesWith_nil fun l hl => hR l hl w hw
  rw [front_map]
  refine ⟨?_, ?_, ?_⟩
  · rw [linesWith_append, hn _ (by simp [frontWords])]
    simp only [linesWith_append]
    rw [linesWith_parents b!"author " (by decide) (by decide)]
    cases c.encoding <;> simp [linesWith]
  · rw [linesWith_append, hn _ (by simp [frontWords])]
    simp only [linesWith_append]
    rw [linesWith_parents b!"committer " (by decide) (by decide)]
    cases c.encoding <;> simp [linesWith]
  · rw [linesWith_append, hn _ (by simp [frontWords])]
    simp only [linesWith_append]
    rw [linesWith_parents b!"encoding " (by decide) (by decide)]
    cases c.encoding <;> simp [linesWith]

/-- A tree reference that is read. -/
theorem front_tree {c : Commit} {a k : PersonInfo} {R : List Bytes} (hg : GitOrNil c.tree) {v : Link}
    (h : LastValue RefLink (behind b!"tree " ((frontLines c a k).map trimCR ++ R)) .nil v) : IsGitLink c.tree := by
  have k1 : trimCR (b!"tree " ++ hex (digest c.tree)) = b!"tree " ++ hex (digest c.tree) :=
    trimCR_of (hex_line (Nat.le_refl _) _ _ (by decide) (by decide) (by decide) hg).noCR
  have h1 : b!"tree " ++ hex (digest c.tree) ∈ linesWith b!"tree " ((frontLines c a k).map trimCR ++ R) := by
    refine List.mem_filter.2 ⟨?_, List.isPrefixOf_iff_prefix.2 (List.prefix_append _ _)⟩
    refine List.mem_append_left _ (List.mem_map.2 ⟨_, ?_, k1⟩)
    simp [frontLines]
  have h2 : hex (digest c.tree) ∈ behind b!"tree " ((frontLines c a k).map trimCR ++ R) :=
    List.mem_map.2 ⟨_, h1, by simp⟩
  rcases hg with hg | hg
  · exact hg
  · exfalso
    rw [hg] at h2
    obtain ⟨ys, hp, hv⟩ := h
    clear hv h1 k1 hg
    generalize behind b!"tree " ((frontLines c a k).map trimCR ++ R) = xs at h2 hp
    induction xs generalizing ys with
    | nil => simp at h2
    | cons x xs ih =>
      cases ys with
      | nil => exact hp.elim
      | cons y ys =>
        rcases List.mem_cons.1 h2 with rfl | h2
        · obtain ⟨sha, hr, _⟩ := hp.1
          have h3 := hr.1
          have h4 := hr.2
          have : hex (digest .nil) = [] := by decide
          rw [this] at h3
          cases h3
          simp at h4
        · exact ih ys h2 hp.2

theorem other_unknown {ls : List Bytes} {l : Bytes}
    (h : l ∈ ls.filter fun l => knownHeaders.all fun w => !w.isPrefixOf l) : ∀ w ∈ knownHeaders, ¬ w <+: l := by
  intro w hw hp
  have := List.all_eq_true.1 (List.mem_filter.1 h).2 w hw
  rw [List.isPrefixOf_iff_prefix.2 hp] at this
  simp at this

theorem mem_plainLines {bs : List Block} {l : Bytes} (h : l ∈ plainLines bs) : .line l ∈ bs := by
  obtain ⟨B, hB, he⟩ := List.mem_filterMap.1 h
  cases B with
  | line l' => simp only [Option.some.injEq] at he; exact he ▸ hB
  | sig => simp at he
  | merge => simp at he

theorem mem_signatures {bs : List Block} {ls : List Bytes} (h : ls ∈ signatures bs) : .sig ls ∈ bs := by
  obtain ⟨B, hB, he⟩ := List.mem_filterMap.1 h
  cases B with
  | line l' => simp at he
  | sig => simp only [Option.some.injEq] at he; exact he ▸ hB
  | merge => simp at he

theorem mem_mergeTags {bs : List Block} {x} (h : x ∈ mergeTags bs) : .merge x.1 x.2.1 x.2.2 ∈ bs := by
  obtain ⟨B, hB, he⟩ := List.mem_filterMap.1 h
  cases B with
  | line l' => simp at he
  | sig => simp at he
  | merge => simp only [Option.some.injEq] at he; exact he ▸ hB

/-- A commit whose header lines fit the buffer is encoded and read back as it was
exactly if it fits the format. -/
theorem commit_survives (N : Nat) (hN : 4096 ≤ N) (c : Commit)
    (hs : ∀ a k, c.author = some a → c.committer = some k → ShortLines N (commitHeader c a k))
    (hlen : ∀ a k, c.author = some a → c.committer = some k → (commitBody c a k).length < 2 ^ 63) :
    (∃ out, encObj (.commit c) = .ok out ∧ parseObject (σ := Stream) ⟨out, .eof, N⟩ = .ok (.commit c)) ↔
      ∃ a k, CommitOk N c a k := by
  refine ⟨?_, fun ⟨a, k, h⟩ => ?_⟩
  rotate_left
  · obtain ⟨out, h1, _, h2⟩ := commit_roundtrip N hN c a k h (hlen a k h.authorIs h.committerIs)
    exact ⟨out, h1, h2⟩
  rintro ⟨out, henc, hdec⟩
  have hN2 : 2 ≤ N := by omega
  obtain ⟨_, d, z, body, bs, m, hd, hrest, hb, hm⟩ := (commit_accepts ⟨out, .eof, N⟩ hN2 c).1 hdec
  simp only at hrest hb
  obtain ⟨_, _, _, _, _, _, _, h3, h4, _, _⟩ := encCommit_inv _ _ henc
  obtain ⟨a, ha⟩ := personOrPanic_some h3
  obtain ⟨k, hk⟩ := personOrPanic_some h4
  have hs := hs a k ha hk
  clear h3 h4 hlen
  have hok := blocks_ok hb
  -- the fields of `c` come from lines
  have htree : GitOrNil c.tree := gitOrNil_last hm.tree
  have hpar : ∀ p ∈ c.parents, IsGitLink p := by
    intro p hp
    obtain ⟨x, _, h⟩ := pairs_mem hm.parents p hp
    exact refLink_git h
  have hmobj : ∀ t ∈ c.mergetag, IsGitLink t.object := by
    intro t ht
    obtain ⟨x, _, h⟩ := pairs_mem hm.mergetag t ht
    exact refLink_git h.object
  have hmsg : ∀ t ∈ c.mergetag, ∃ ls, t.message = unlines ls ∧ ∀ l ∈ ls, LF ∉ l ∧ l.head? = some SP := by
    intro t ht
    obtain ⟨x, hx, h⟩ := pairs_mem hm.mergetag t ht
    exact ⟨_, h.message, (hok _ (mem_mergeTags hx)).2⟩
  have hmsgL : ∀ t ∈ c.mergetag, IsLines t.message := by
    intro t ht
    obtain ⟨ls, h1, h2⟩ := hmsg t ht
    exact ⟨ls, h1, fun l hl => (h2 l hl).1⟩
  have hplain : ∀ l ∈ plainLines bs, LF ∉ l ∧ l ≠ [] := fun l hl => hok _ (mem_plainLines hl)
  have hperson : ∀ (w : Bytes) (p : PersonInfo), (∃ ps, Pairs PersonRead (linesWith w (plainLines bs)) ps ∧
      some p = ps.getLast?) → LF ∉ personText p := by
    rintro w p ⟨ps, hp, hl⟩
    obtain ⟨x, hx, h⟩ := pairs_mem hp p (List.mem_of_getLast? hl.symm)
    exact personRead_noLF h (hplain x (linesWith_mem hx)).1
  have hLFa := hperson b!"author " a (ha ▸ hm.author)
  have hLFk := hperson b!"committer " k (hk ▸ hm.committer)
  have hLFe : ∀ e, c.encoding = some e → LF ∉ e := by
    intro e he hc
    have := hm.encoding
    rw [he] at this
    exact (hplain _ (behind_mem (List.mem_of_getLast? this.symm))).1 (List.mem_append_right _ hc)
  have hoth : ∀ l ∈ c.other, (LF ∉ l ∧ l ≠ []) ∧ ∀ w ∈ knownHeaders, ¬ w <+: l := by
    intro l hl
    rw [hm.other] at hl
    exact ⟨hplain l (List.mem_filter.1 hl).1, other_unknown hl⟩
  have hsig : ∀ g, c.signature = some g → ∃ gl, g = unlines gl ∧ (signatures bs).getLast? = some gl ∧
      (∀ l ∈ gl, LF ∉ l ∧ l ≠ sigEnd) ∧ SigStart gl := by
    intro g hg
    have h1 := hm.signature.2
    rw [hg] at h1
    obtain ⟨gl, h2, h3⟩ := Option.map_eq_some_iff.1 h1.symm
    have h4 := List.mem_of_getLast? h2
    exact ⟨gl, h3.symm, h2, hok _ (mem_signatures h4), hm.signature.1 gl h4⟩
  have hsigL : ∀ g, c.signature = some g → IsLines g := by
    intro g hg
    obtain ⟨gl, h1, _, h2, _⟩ := hsig g hg
    exact ⟨gl, h1, fun l hl => (h2 l hl).1⟩
  -- the text
  have hout : out = withHeader b!"commit" (commitBody c a k) := by
    have : encObj (.commit c) = _ := encCommit_text c a k htree hpar ha hk hmobj
    rw [this] at henc
    exact (Res.ok.inj henc).symm
  rw [hout] at hrest
  have hbody := withHeader_body (w := b!"commit") (body' := body) hd.1 (hrest.trans (by simp))
  subst hbody
  rw [commitBody_lines c a k hmsgL hsigL] at hb
  have htypLF : ∀ t ∈ c.mergetag, LF ∉ t.typ ∧ LF ∉ t.tag ∧ LF ∉ personText t.tagger := by
    intro t ht
    obtain ⟨x, hx, h⟩ := pairs_mem hm.mergetag t ht
    have hx := (hok _ (mem_mergeTags hx)).1
    refine ⟨?_, ?_, ?_⟩
    · rw [h.typ]
      rcases getLast?_getD_mem (behind b!" type " x.2.1) [] with h' | h'
      · rw [h']; simp
      · exact fun hc => hx _ (behind_mem h') (List.mem_append_right _ hc)
    · rw [h.tag]
      rcases getLast?_getD_mem (behind b!" tag " x.2.1) [] with h' | h'
      · rw [h']; simp
      · exact fun hc => hx _ (behind_mem h') (List.mem_append_right _ hc)
    · rcases lastValue_cases h.tagger with h' | ⟨y, hy, h'⟩
      · rw [h']; decide
      · obtain ⟨y, hy', rfl⟩ := List.mem_map.1 hy
        exact personRead_noLF h' fun hc => hx y (linesWith_mem hy') (List.mem_of_mem_drop hc)
  have hLF : ∀ l ∈ headerLines c a k, LF ∉ l := by
    intro l hl
    simp only [headerLines, frontLines, List.mem_append, List.mem_cons, List.not_mem_nil, or_false, List.mem_map,
      Option.mem_toList, Option.map_eq_some_iff, List.mem_flatMap] at hl
    rcases hl with (((rfl | ⟨p, hp, rfl⟩) | rfl | rfl) | ⟨e, he, rfl⟩) | ⟨t, ht, hl⟩ | hl | hl
    · exact (hex_line hN _ _ (by decide) (by decide) (by decide) htree).noLF
    · exact (hex_line hN _ _ (by decide) (by decide) (by decide) (.inl (hpar p hp))).noLF
    · simp [hLFa]; decide
    · simp [hLFk]; decide
    · simp [hLFe e he]; decide
    · simp only [mergeLines, List.mem_append, List.mem_cons, List.not_mem_nil, or_false] at hl
      obtain ⟨h1, h2, h3⟩ := htypLF t ht
      rcases hl with (rfl | rfl | rfl | rfl | rfl) | hl
      · exact (hex_line hN _ _ (by decide) (by decide) (by decide) (.inl (hmobj t ht))).noLF
      · simp [h1]; decide
      · simp [h2]; decide
      · simp [h3]; decide
      · decide
      · exact ((isLines_iff _).1 (hmsgL t ht)).2 l hl
    · cases hg : c.signature with
      | none => rw [hg] at hl; simp [sigLines] at hl
      | some g =>
        rw [hg] at hl
        simp only [sigLines, List.mem_cons, List.mem_append, List.not_mem_nil, or_false] at hl
        rcases hl with rfl | hl | rfl
        · decide
        · exact ((isLines_iff _).1 (hsigL g hg)).2 l hl
        · decide
    · exact (hoth l hl).1.1
  have hfit : Fit N (headerLines c a k) := by
    refine header_fit ?_ hLF
    have : commitHeader c a k = unlines (headerLines c a k) ++ [LF] :=
      commitBody_lines { c with message := [] } a k hmsgL hsigL
    rw [← this]
    exact hs
  -- the blocks
  have hL := blocks_lines hN2 hb _ _ hfit rfl hm.message.symm
  simp only [headerLines, List.map_append] at hL
  obtain ⟨bs1, rfl, hL1⟩ := lblocks_front hL
    (by
      intro l hl hp
      obtain ⟨w, hw, h⟩ := front_word hl
      simp only [frontWords, List.mem_cons, List.not_mem_nil, or_false] at hw
      rcases prefix_clash hp h with h' | h' <;> rcases hw with rfl | rfl | rfl | rfl | rfl <;> revert h' <;> decide)
    (by
      intro l hl hp
      obtain ⟨w, hw, h⟩ := front_word hl
      simp only [frontWords, List.mem_cons, List.not_mem_nil, or_false] at hw
      rcases prefix_clash hp h with h' | h' <;> rcases hw with rfl | rfl | rfl | rfl | rfl <;> revert h' <;> decide)
  have hok1 : ∀ B ∈ bs1, BlockOk B := fun B hB => hok B (by simp [hB])
  have hmt := hm.mergetag
  rw [mergeTags_front] at hmt
  obtain ⟨bs2, hL2, hok2, hmt2, hp2, hs2, hclean, hafter⟩ := lblocks_mergetags hL1 hok1 hmt hmobj
  -- the unknown lines
  have hfront : ((frontLines c a k).map trimCR).filter (fun l => knownHeaders.all fun w => !w.isPrefixOf l) = [] := by
    refine List.filter_eq_nil_iff.2 fun l hl hp => ?_
    obtain ⟨w, hw, h⟩ := front_word hl
    have hw' : w ∈ knownHeaders := by
      simp only [frontWords, List.mem_cons, List.not_mem_nil, or_false] at hw
      rcases hw with rfl | rfl | rfl | rfl | rfl <;> decide
    have := List.all_eq_true.1 hp w hw'
    rw [List.isPrefixOf_iff_prefix.2 h] at this
    simp at this
  have hother := hm.other
  rw [plainLines_front, hp2, List.filter_append, hfront, List.nil_append] at hother
  have hsg2 : signatures (((frontLines c a k).map trimCR).map Block.line ++ bs1) = signatures bs2 := by
    rw [signatures_front, hs2]
  have key : plainLines bs2 = c.other.map trimCR ∧
      ∀ g, c.signature = some g → (linesOf g).map trimCR = linesOf g := by
    cases hg : c.signature with
    | none =>
      have h1 := hm.signature.2
      rw [hg, hsg2] at h1
      have h2 : signatures bs2 = [] := by
        cases h : signatures bs2 with
        | nil => rfl
        | cons x xs => rw [h] at h1; simp [List.getLast?_cons] at h1
      rw [hg] at hL2
      exact ⟨lblocks_plain hL2 hmt2 h2, by simp⟩
    | some g =>
      obtain ⟨gl, rfl, h2, h3, _⟩ := hsig g hg
      rw [hsg2] at h2
      have h4 : linesOf (unlines gl) = gl := linesOf_unlines gl fun l hl => (h3 l hl).1
      rw [hg] at hL2
      simp only [sigLines, h4, List.map_cons, List.map_append, List.map_nil, List.cons_append, List.append_assoc,
        List.nil_append] at hL2
      have e1 : trimCR sigBegin = sigBegin := by decide
      have e2 : trimCR sigEnd = sigEnd := by decide
      rw [e1, e2] at hL2
      obtain ⟨h5, _, h6⟩ := lblocks_signed (others := c.other) hL2 hmt2 h2 (by simp)
        (by conv => lhs; rw [hother]
            exact List.length_filter_le ..)
      refine ⟨h6, ?_⟩
      intro g' hg'
      obtain rfl := (Option.some.inj hg')
      rw [h4]
      exact h5
  obtain ⟨hplain2, hsigTrim⟩ := key
  have hotherTrim : c.other.map trimCR = c.other := by
    rw [hplain2] at hother
    have h1 := congrArg List.length hother
    have h2 : (List.filter (fun l => knownHeaders.all fun w => !w.isPrefixOf l) (c.other.map trimCR)).length =
        (c.other.map trimCR).length := by rw [← h1]; simp
    rw [List.length_filter_eq_length_iff] at h2
    rw [List.filter_eq_self.2 h2] at hother
    exact hother.symm
  rw [hotherTrim] at hplain2
  -- author, committer, encoding
  have hall : plainLines (((frontLines c a k).map trimCR).map Block.line ++ bs1) =
      (frontLines c a k).map trimCR ++ c.other := by rw [plainLines_front, hp2, hplain2]
  obtain ⟨f1, f2, f3⟩ := front_lines c a k c.other (by
    intro l hl w hw
    refine (hoth l hl).2 w ?_
    simp only [frontWords, List.mem_cons, List.not_mem_nil, or_false] at hw
    rcases hw with rfl | rfl | rfl | rfl | rfl <;> decide)
  have hau := hm.author
  have hco := hm.committer
  have hen := hm.encoding
  have htr := hm.tree
  rw [hall] at hau hco hen htr
  rw [f1] at hau
  rw [f2] at hco
  have onePerson : ∀ (w : Bytes) (p : PersonInfo), CR ∉ w → SP ∉ w →
      (∃ ps, Pairs PersonRead [w ++ b!" " ++ trimCR (personText p)] ps ∧ some p = ps.getLast?) →
      (w ++ b!" " ++ personText p).getLast? ≠ some CR ∧ PersonOk p := by
    rintro w p hw hsp ⟨ps, h1, h2⟩
    match ps, h1, h2 with
    | [q], h1, h2 =>
      simp only [List.getLast?_singleton, Option.some.injEq] at h2
      subst h2
      have h3 := h1.1
      rw [← trimCR_append (w ++ b!" ") (personText p) (by simp; decide)] at h3
      have := person_exact (w := w) (p := p) hw hsp (by simpa using h3)
      simpa using this
  obtain ⟨hacr, haok⟩ := onePerson b!"author" a (by decide) (by decide) (ha ▸ hau)
  obtain ⟨hkcr, hkok⟩ := onePerson b!"committer" k (by decide) (by decide) (hk ▸ hco)
  have hfits : ∀ l ∈ headerLines c a k, l.getLast? ≠ some CR → HeaderLine N l := fun l hl hcr =>
    ⟨(hfit l hl).1, hcr, (hfit l hl).2⟩
  refine ⟨a, k, ?_⟩
  exact
    { tree := front_tree htree htr
      parents := hpar
      authorIs := ha
      authorOk := haok
      authorLine := hfits _ (by simp [headerLines, frontLines]) hacr
      committerIs := hk
      committerOk := hkok
      committerLine := hfits _ (by simp [headerLines, frontLines]) hkcr
      encoding := by
        intro e he
        refine hfits _ (by simp [headerLines, frontLines, he]) ?_
        rw [he] at f3 hen
        simp only [behind, f3, Option.map_some, Option.toList_some, List.map_cons, List.map_nil,
          List.getLast?_singleton, Option.some.injEq] at hen
        have hen : e = trimCR e := by simpa using hen
        refine (trimCR_eq_iff _).1 ?_
        rw [trimCR_append _ _ (by decide), ← hen]
      mergetag := by
        intro t ht
        obtain ⟨h1, h2⟩ := hclean t ht
        have hl : ∀ l ∈ mergeLines t, HeaderLine N l := by
          intro l hl
          refine hfits l ?_ ((trimCR_eq_iff l).1 (h1 l hl))
          simp only [headerLines, List.mem_append, List.mem_flatMap]
          exact .inr (.inl ⟨t, ht, hl⟩)
        refine ⟨hmobj t ht, hl _ (by simp [mergeLines]), hl _ (by simp [mergeLines]), h2, hl _ (by simp [mergeLines]), ?_⟩
        obtain ⟨ls, h3, h4⟩ := hmsg t ht
        refine ⟨ls, h3, fun l hl' => ⟨(h4 l hl').2, hl l ?_⟩⟩
        have : linesOf t.message = ls := by rw [h3, linesOf_unlines ls fun l hl => (h4 l hl).1]
        simp [mergeLines, this, hl']
      signature := by
        intro g hg
        have h0 := hsigTrim g hg
        obtain ⟨gl, rfl, _, h3, l, hl, h4⟩ := hsig g hg
        have h5 : linesOf (unlines gl) = gl := linesOf_unlines gl fun l hl => (h3 l hl).1
        rw [h5] at h0
        cases gl with
        | nil => simp at hl
        | cons x ls =>
          simp only [List.head?_cons, Option.some.injEq] at hl
          subst hl
          refine ⟨x, ls, rfl, ?_, fun y hy => (h3 y (by simp [hy])).2, h4⟩
          intro y hy
          refine hfits y ?_ ((trimCR_eq_iff y).1 (trim_map_eq h0 y hy))
          simp only [headerLines, List.mem_append, hg, sigLines, h5]
          exact .inr (.inr (.inl (by simp only [List.mem_cons, List.mem_append] at hy ⊢; exact .inr (.inl hy))))
      other := by
        intro l hl
        refine ⟨hfits l ?_ ((trimCR_eq_iff l).1 (trim_map_eq hotherTrim l hl)), (hoth l hl).1.2, (hoth l hl).2⟩
        simp [headerLines, hl]
      afterTag := by
        intro hne hg l hl
        refine hafter hne l ?_
        rw [hg, hotherTrim]
        simpa [sigLines] using hl }

/-- A text shorter than the buffer has short lines only. -/
theorem shortLines_of_length {N : Nat} {b : Bytes} (h : b.length < N) : ShortLines N b := by
  rintro p l r rfl _
  simp at h
  omega

/-- A commit with merge tag and signature meets the hypotheses, and survives. -/
example : (∀ a k, sampleCommit.author = some a → sampleCommit.committer = some k →
      ShortLines 4096 (commitHeader sampleCommit a k) ∧ (commitBody sampleCommit a k).length < 2 ^ 63) ∧
    (∃ a k, CommitOk 4096 sampleCommit a k) ∧ sampleCommit.mergetag ≠ [] ∧ sampleCommit.signature.isSome := by
  refine ⟨?_, ⟨_, _, sampleCommit_ok 4096 (by omega)⟩, by decide, by decide⟩
  intro a k ha hk
  cases ha
  cases hk
  exact ⟨shortLines_of_length (by decide +kernel), by decide +kernel⟩

/-- The same commit with a line break in its encoding does not. -/
example : ¬ ∃ a k, CommitOk 4096 { sampleCommit with encoding := some b!"utf\n8" } a k := by
  rintro ⟨a, k, h⟩
  exact (h.encoding _ rfl).noLF (by decide)

end Verif.Props
