import Verif.Spec.GitWrite
import Verif.Props.Signed
import Verif.Props.Multi
import Verif.Props.Order

/-!
# C106 Which of the commits and tags that git makes are reproduced
-/

namespace Verif.Props

open Verif Spec

/-! ## Persons -/

theorem withoutCrud_mem {more x : Bytes} {c : UInt8} (h : c ∈ withoutCrud more x) : c ≠ LF ∧ c ≠ LT ∧ c ≠ GT := by
  have := (List.mem_filter.1 h).2
  simp only [Bool.and_eq_true, bne_iff_ne] at this
  exact ⟨this.1.1, this.1.2, this.2⟩

theorem dropWhile_head {p : UInt8 → Bool} : ∀ (x : Bytes) (c : UInt8), (x.dropWhile p).head? = some c → p c = false
  | [], c, h => by simp at h
  | a :: x, c, h => by
    rw [List.dropWhile_cons] at h
    split at h
    · exact dropWhile_head x c h
    · rename_i hp
      simp only [List.head?_cons, Option.some.injEq] at h
      subst h
      simpa using hp

theorem dropWhile_suffix (p : UInt8 → Bool) (x : Bytes) : x.dropWhile p <:+ x := List.dropWhile_suffix p

/-- The name does not begin with a space. -/
theorem withoutCrud_head (more x : Bytes) : (withoutCrud more x).head? ≠ some SP := by
  intro h
  unfold withoutCrud at h
  generalize hy : (x.dropWhile (crud more)) = y at h
  have hcrud : ∀ c, y.head? = some c → crud more c = false := by
    intro c hc
    rw [← hy] at hc
    exact dropWhile_head _ _ hc
  generalize hz : (y.reverse.dropWhile (crud more)).reverse = z at h
  have hpre : z <+: y := by
    rw [← hz]
    have := dropWhile_suffix (crud more) y.reverse
    rw [← List.reverse_prefix] at this
    simpa using this
  cases z with
  | nil => simp at h
  | cons c z =>
    have hc : y.head? = some c := by
      obtain ⟨r, rfl⟩ := hpre
      rfl
    have h1 := hcrud c hc
    have h2 : c ≠ LF ∧ c ≠ LT ∧ c ≠ GT := by
      refine ⟨?_, ?_, ?_⟩ <;> rintro rfl <;> simp [crud, LF, LT, GT] at h1
    rw [List.filter_cons_of_pos (by simp [h2])] at h
    simp only [List.head?_cons, Option.some.injEq] at h
    subst h
    simp [crud, SP] at h1

theorem infix_mem {p x : Bytes} (h : p <:+: x) : ∀ c ∈ p, c ∈ x := fun _ hc => h.subset hc

theorem digit_sep {c : UInt8} (h : Digit c) : c ≠ SP ∧ c ≠ LF ∧ c ≠ CR := by
  refine ⟨?_, ?_, ?_⟩ <;> rintro rfl <;> exact absurd h.1 (by decide)

theorem zone_ne {z : Bytes} (h : ∃ sign ds, z = sign :: ds ∧ (sign = 43 ∨ sign = 45) ∧ ds.length = 4 ∧ ∀ c ∈ ds, Digit c) :
    z ≠ [] ∧ SP ∉ z ∧ LF ∉ z := by
  obtain ⟨s, ds, rfl, hs, _, hd⟩ := h
  refine ⟨by simp, ?_, ?_⟩ <;>
  · intro hm
    rcases List.mem_cons.1 hm with rfl | hm
    · revert hs; decide
    · have := digit_sep (hd _ hm)
      simp at this

theorem made_person (more : Bytes) {i : MadeIdent} (h : i.Ok) : PersonOk (i.person more) := by
  obtain ⟨n, hn⟩ := h.date
  refine ⟨⟨withoutCrud_head _ _, ?_⟩, ?_, ?_, ?_, ?_, (zone_ne h.zone).2.1, fun _ => hn.1⟩
  · intro hh
    exact (withoutCrud_mem (List.mem_of_head? hh)).2.1 rfl
  · intro hh
    exact (withoutCrud_mem (infix_mem hh LT (by decide))).2.1 rfl
  · intro hh
    exact (withoutCrud_mem (infix_mem hh LT (by decide))).2.1 rfl
  · intro hh
    exact (withoutCrud_mem (infix_mem hh GT (by decide))).2.2 rfl
  · intro hh
    exact (digit_sep (hn.2.1 _ hh)).1 rfl

theorem made_text (more : Bytes) {i : MadeIdent} (h : i.Ok) : personText (i.person more) = i.text more := by
  obtain ⟨n, hn⟩ := h.date
  simp [personText, MadeIdent.person, MadeIdent.text, hn.1, (zone_ne h.zone).1, SP]

theorem made_noLF (more : Bytes) {i : MadeIdent} (h : i.Ok) : LF ∉ i.text more := by
  obtain ⟨n, hn⟩ := h.date
  have h1 : LF ∉ withoutCrud more i.name := fun h => (withoutCrud_mem h).1 rfl
  have h2 : LF ∉ withoutCrud more i.email := fun h => (withoutCrud_mem h).1 rfl
  have h3 : LF ∉ i.date := fun h => (digit_sep (hn.2.1 _ h)).2.1 rfl
  simp only [MadeIdent.text, List.mem_append, not_or]
  exact ⟨⟨⟨⟨⟨⟨h1, by decide⟩, h2⟩, by decide⟩, h3⟩, by decide⟩, (zone_ne h.zone).2.2⟩

/-! ## Lines -/

theorem textLines_noLF : ∀ (x : Bytes), ∀ l ∈ textLines x, LF ∉ l
  | [], l, h => by simp [textLines] at h
  | b :: r, l, h => by
    have ih := textLines_noLF r
    unfold textLines at h
    split at h
    · rcases List.mem_cons.1 h with rfl | h
      · simp
      · exact ih l h
    · rename_i hb
      split at h
      · simp only [List.mem_singleton] at h
        subst h
        simp [Ne.symm hb]
      · rename_i l' ls' he
        rcases List.mem_cons.1 h with rfl | h
        · have := ih l' (by rw [he]; simp)
          simp [Ne.symm hb, this]
        · exact ih l (by rw [he]; simp [h])

theorem textLines_unlines (ls : List Bytes) (h : ∀ l ∈ ls, LF ∉ l) (r : Bytes) :
    textLines (unlines ls ++ r) = ls ++ textLines r := by
  induction ls with
  | nil => rfl
  | cons l ls ih =>
    have : unlines (l :: ls) ++ r = l ++ LF :: (unlines ls ++ r) := by simp [unlines]
    rw [this, textLines_cons _ _ (h l (by simp)), ih (fun l hl => h l (by simp [hl]))]
    rfl

theorem hexLine_noLF (p sha : Bytes) (hp : LF ∉ p) (hs : sha.length = 20) : LF ∉ p ++ hex sha :=
  (headerLine_hex (p.length + 41) p sha hp hs (by omega)).noLF

theorem tagLines_noLF (more : Bytes) {t : MadeTag} (h : t.Ok) : ∀ l ∈ t.lines more, LF ∉ l := by
  intro l hl
  simp only [MadeTag.lines, List.mem_cons, List.not_mem_nil, or_false] at hl
  rcases hl with rfl | rfl | rfl | rfl
  · exact hexLine_noLF _ _ (by decide) h.object
  · have := h.typ
    simp only [List.mem_cons, List.not_mem_nil, or_false] at this
    rcases this with h | h | h | h <;> rw [h] <;> decide
  · rw [List.mem_append]
    rintro (h1 | h1)
    · revert h1; decide
    · have := h.name _ h1
      revert this; decide
  · rw [List.mem_append]
    rintro (h1 | h1)
    · revert h1; decide
    · exact made_noLF more h.tagger h1

theorem unlines_append (a b : List Bytes) : unlines (a ++ b) = unlines a ++ unlines b := by simp [unlines]

theorem textLines_body (more : Bytes) {t : MadeTag} (h : t.Ok) :
    textLines (t.body more) = t.lines more ++ [] :: textLines t.msg := by
  unfold MadeTag.body
  rw [textLines_unlines _ (tagLines_noLF more h)]
  simp [textLines]

theorem mergetag_lines (more : Bytes) {t : MadeTag} (h : t.Ok) :
    (Extra.mergetag t).lines more = [b!"mergetag object " ++ hex t.object, b!" type " ++ t.typ, b!" tag " ++ t.name,
      b!" tagger " ++ t.tagger.text more, b!" "] ++ (textLines t.msg).map (SP :: ·) := by
  show extraLines _ _ = _
  unfold extraLines
  rw [textLines_body more h]
  simp [MadeTag.lines, SP]

theorem mergetag_text (more : Bytes) {t : MadeTag} (h : t.Ok) :
    unlines ((Extra.mergetag t).lines more) = mergeTagBlock (hex t.object) (t.merged more) := by
  rw [mergetag_lines more h, unlines_append]
  simp [mergeTagBlock, MadeTag.merged, made_text more h.tagger]

/-! ## The headers as items -/

/-- The items of an extra header. -/
def extraItems (more : Bytes) : Extra → List Item
  | .mergetag t => [.mergetag (hex t.object) (t.merged more)]
  | .other k v => (extraLines k v).map .other

/-- The items before the extra headers. -/
def firstItems (more : Bytes) (g : MadeCommit) : List Item :=
  [.tree (hex g.tree) g.tree]
  ++ g.parents.map (fun p => .parent (hex p) p)
  ++ [.author (g.author.person more), .committer (g.committer.person more)]
  ++ (g.encoding.map Item.encoding).toList

/-- The items before the signature. -/
def writtenItems (more : Bytes) (g : MadeCommit) : List Item :=
  firstItems more g ++ g.extra.flatMap (extraItems more)

theorem itemsText_others (ls : List Bytes) : itemsText (ls.map Item.other) = unlines ls := by
  induction ls with
  | nil => rfl
  | cons l ls ih =>
    have : itemsText ((l :: ls).map Item.other) = unlines [l] ++ itemsText (ls.map Item.other) := by simp [itemsText, Item.text]
    rw [this, ih, ← unlines_append]
    rfl

theorem itemsText_extra (more : Bytes) (xs : List Extra) (h : ∀ x ∈ xs, x.Ok) :
    itemsText (xs.flatMap (extraItems more)) = unlines (xs.flatMap (Extra.lines more)) := by
  induction xs with
  | nil => rfl
  | cons x xs ih =>
    rw [List.flatMap_cons, List.flatMap_cons, itemsText_append, unlines_append, ih fun x hx => h x (by simp [hx])]
    congr 1
    cases x with
    | mergetag t =>
      rw [mergetag_text more (h (.mergetag t) (by simp))]
      simp [extraItems, itemsText, Item.text]
    | other k v => exact itemsText_others _

theorem itemsText_first (more : Bytes) (g : MadeCommit) (h : g.Ok) :
    itemsText (firstItems more g) = unlines ([b!"tree " ++ hex g.tree]
      ++ g.parents.map (fun p => b!"parent " ++ hex p)
      ++ [b!"author " ++ g.author.text more, b!"committer " ++ g.committer.text more]
      ++ (g.encoding.map fun e => b!"encoding " ++ e).toList) := by
  have hp : ∀ ps : List Bytes, itemsText (ps.map fun p => .parent (hex p) p) = unlines (ps.map fun p => b!"parent " ++ hex p) := by
    intro ps
    induction ps with
    | nil => rfl
    | cons p ps ih =>
      simp only [itemsText, unlines, List.map_cons, List.flatMap_cons] at ih ⊢
      rw [ih]
      simp [Item.text, unlines]
  unfold firstItems
  simp only [itemsText_append, unlines_append, hp]
  congr 1
  · simp [itemsText, Item.text, made_text more h.author, made_text more h.committer, unlines]
  · cases g.encoding <;> simp [itemsText, Item.text, unlines]

theorem itemsText_written (more : Bytes) (g : MadeCommit) (h : g.Ok) :
    unlines (g.lines more) = itemsText (writtenItems more g) ++ unlines (sigHeaderLines g.sig) := by
  unfold writtenItems MadeCommit.lines
  rw [itemsText_append, itemsText_extra more _ h.extra, itemsText_first more g h, unlines_append, unlines_append]

/-! ## They are well formed -/

theorem itemsOk_each {N : Nat} : ∀ (is : List Item), (∀ i ∈ is, i.Ok N) → (∀ h t, Item.mergetag h t ∉ is) → ItemsOk N is
  | [], _, _ => trivial
  | i :: is, h, hm => ⟨h i (by simp), fun x t l he _ => absurd (by rw [he]; simp) (hm x t),
      itemsOk_each is (fun i hi => h i (by simp [hi])) fun x t hx => hm x t (by simp [hx])⟩

theorem spaceKey_prefix {p k r : Bytes} (hp : SP ∉ p) (hk : SP ∉ k) (h : p ++ [SP] <+: k ++ SP :: r) : p = k := by
  induction p generalizing k with
  | nil =>
    cases k with
    | nil => rfl
    | cons c k =>
      obtain ⟨t, ht⟩ := h
      simp only [List.nil_append, List.cons_append, List.cons.injEq] at ht
      exact absurd (by rw [← ht.1]; simp) hk
  | cons a p ih =>
    cases k with
    | nil =>
      obtain ⟨t, ht⟩ := h
      simp only [List.nil_append, List.cons_append, List.cons.injEq] at ht
      exact absurd (by rw [ht.1]; simp) hp
    | cons c k =>
      rw [List.cons_append, List.cons_append, List.cons_prefix_cons] at h
      rw [h.1, ih (fun h => hp (by simp [h])) (fun h => hk (by simp [h])) h.2]

theorem extraLines_head (k v : Bytes) : ∃ x r, extraLines k v = (k ++ x) :: r ∧ (x = [] ∨ ∃ l, x = SP :: l) ∧
    (LF ∉ x) ∧ ∀ l ∈ r, ∃ l', l = SP :: l' ∧ LF ∉ l' := by
  have hn := textLines_noLF v
  unfold extraLines
  split
  · exact ⟨[], [], by simp, .inl rfl, by simp, by simp⟩
  · rename_i l ls he
    rw [he] at hn
    refine ⟨SP :: l, _, rfl, .inr ⟨l, rfl⟩, ?_, ?_⟩
    · have := hn l (by simp)
      simp only [List.mem_cons, not_or]
      exact ⟨by decide, this⟩
    · intro l' hl'
      obtain ⟨y, hy, rfl⟩ := List.mem_map.1 hl'
      exact ⟨y, rfl, hn y (by simp [hy])⟩

theorem known_words {p : Bytes} (hp : p ∈ knownHeaders) :
    ∃ w r, p = w ++ [SP] ++ r ∧ SP ∉ w ∧ w ≠ [] ∧
      w ∈ [b!"tree", b!"parent", b!"author", b!"committer", b!"encoding", b!"mergetag", b!"gpgsig"] := by
  simp only [knownHeaders, List.mem_cons, List.not_mem_nil, or_false] at hp
  rcases hp with rfl | rfl | rfl | rfl | rfl | rfl | rfl
  · exact ⟨b!"tree", [], by decide⟩
  · exact ⟨b!"parent", [], by decide⟩
  · exact ⟨b!"author", [], by decide⟩
  · exact ⟨b!"committer", [], by decide⟩
  · exact ⟨b!"encoding", [], by decide⟩
  · exact ⟨b!"mergetag", b!"object ", by decide⟩
  · exact ⟨b!"gpgsig", [], by decide⟩

theorem extra_other_ok {N : Nat} {k v : Bytes} (h : (Extra.other k v).Ok) (hf : LinesFit N (extraLines k v)) :
    ItemsOk N ((extraLines k v).map .other) := by
  obtain ⟨x, r, he, hx, hxl, hr⟩ := extraLines_head k v
  refine itemsOk_each _ ?_ (by simp)
  intro i hi
  obtain ⟨l, hl, rfl⟩ := List.mem_map.1 hi
  have hfl := hf l hl
  rw [he] at hl
  obtain ⟨hk0, hk1, hk2, hk3⟩ := h
  rcases List.mem_cons.1 hl with rfl | hl
  · refine ⟨⟨?_, hfl.2, hfl.1⟩, by simp [hk0], ?_⟩
    · simp only [List.mem_append, not_or]; exact ⟨hk2, hxl⟩
    · intro p hp hpre
      obtain ⟨w, t, rfl, hw, _, hmem⟩ := known_words hp
      have hpre : w ++ [SP] <+: k ++ x := (List.prefix_append _ _).trans hpre
      rcases hx with rfl | ⟨l, rfl⟩
      · have := hpre.subset (show SP ∈ w ++ [SP] by simp)
        simp [hk1] at this
      · exact hk3 (spaceKey_prefix hw hk1 hpre ▸ hmem)
  · obtain ⟨l', rfl, hl'⟩ := hr l hl
    refine ⟨⟨?_, hfl.2, hfl.1⟩, by simp, ?_⟩
    · simp only [List.mem_cons, not_or]; exact ⟨by decide, hl'⟩
    · intro p hp hpre
      obtain ⟨w, t, rfl, hw, hne, _⟩ := known_words hp
      cases w with
      | nil => exact hne rfl
      | cons c w =>
        obtain ⟨r, hr⟩ := hpre
        simp only [List.cons_append, List.cons.injEq] at hr
        exact hw (by rw [hr.1]; simp)

theorem extra_merge_ok {N : Nat} (more : Bytes) {t : MadeTag} (h : t.Ok) (hf : LinesFit N ((Extra.mergetag t).lines more)) :
    (Item.mergetag (hex t.object) (t.merged more)).Ok N := by
  have hl := tagLines_noLF more h
  rw [mergetag_lines more h] at hf
  have mk : ∀ l, LF ∉ l → l ∈ [b!"mergetag object " ++ hex t.object, b!" type " ++ t.typ, b!" tag " ++ t.name,
      b!" tagger " ++ t.tagger.text more, b!" "] ++ (textLines t.msg).map (SP :: ·) → HeaderLine N l :=
    fun l h1 h2 => ⟨h1, (hf l h2).2, (hf l h2).1⟩
  refine ⟨ref_hex _ h.object, ⟨⟨_, h.object, rfl⟩, mk _ ?_ (by simp [MadeTag.merged]), mk _ ?_ (by simp [MadeTag.merged]),
    made_person more h.tagger, mk _ ?_ (by simp [MadeTag.merged, made_text more h.tagger]), ⟨_, rfl, ?_⟩⟩⟩
  · have := hl (b!"type " ++ t.typ) (by simp [MadeTag.lines])
    simp only [List.mem_append, not_or] at this ⊢
    exact ⟨by decide, this.2⟩
  · have := hl (b!"tag " ++ t.name) (by simp [MadeTag.lines])
    simp only [List.mem_append, not_or] at this ⊢
    exact ⟨by decide, this.2⟩
  · show LF ∉ _ ++ personText (t.tagger.person more)
    rw [made_text more h.tagger, List.mem_append]
    rintro (h1 | h1)
    · revert h1; decide
    · exact made_noLF more h.tagger h1
  · intro l hl
    obtain ⟨y, hy, rfl⟩ := List.mem_map.1 hl
    refine ⟨rfl, mk _ ?_ (List.mem_append.2 (.inr hl))⟩
    simp only [List.mem_cons, not_or]
    exact ⟨by decide, textLines_noLF _ y hy⟩

theorem extra_first {more : Bytes} {xs : List Extra} {l : Bytes} (h : ∀ x ∈ xs, x.Ok)
    (hl : (xs.flatMap (extraItems more)).head? = some (.other l)) : l.head? ≠ some SP := by
  cases xs with
  | nil => simp at hl
  | cons x xs =>
    cases x with
    | mergetag t => simp [extraItems] at hl
    | other k v =>
      obtain ⟨x, r, he, _, _, _⟩ := extraLines_head k v
      obtain ⟨hk0, hk1, _, _⟩ := h (.other k v) (by simp)
      simp only [List.flatMap_cons, extraItems, he, List.map_cons, List.cons_append, List.head?_cons,
        Option.some.injEq, Item.other.injEq] at hl
      subst hl
      cases k with
      | nil => exact absurd rfl hk0
      | cons c k =>
        simp only [List.cons_append, List.head?_cons, ne_eq, Option.some.injEq]
        rintro rfl
        simp at hk1

theorem extra_ok {N : Nat} (more : Bytes) (xs : List Extra) (h : ∀ x ∈ xs, x.Ok)
    (hf : LinesFit N (xs.flatMap (Extra.lines more))) : ItemsOk N (xs.flatMap (extraItems more)) := by
  induction xs with
  | nil => exact trivial
  | cons x xs ih =>
    rw [List.flatMap_cons] at hf ⊢
    have hxs : ∀ x ∈ xs, x.Ok := fun x hx => h x (by simp [hx])
    refine itemsOk_append N _ _ ?_ (ih hxs fun l hl => hf l (List.mem_append.2 (.inr hl))) fun _ _ l _ hl => extra_first hxs hl
    have hf1 : LinesFit N (x.lines more) := fun l hl => hf l (List.mem_append.2 (.inl hl))
    cases x with
    | mergetag t =>
      exact ⟨extra_merge_ok more (h (.mergetag t) (by simp)) hf1, by simp, trivial⟩
    | other k v => exact extra_other_ok (h _ (by simp)) hf1

theorem written_ok {N : Nat} (more : Bytes) (g : MadeCommit) (h : g.Ok) (hf : LinesFit N (g.lines more)) :
    ItemsOk N (writtenItems more g) := by
  unfold writtenItems
  have mem : ∀ l, l ∈ g.lines more → LF ∉ l → HeaderLine N l := fun l h1 h2 => ⟨h2, (hf l h1).2, (hf l h1).1⟩
  refine itemsOk_append N _ _ (itemsOk_each _ ?_ ?_) (extra_ok more _ h.extra ?_) ?_
  · intro i hi
    simp only [firstItems, List.mem_append, List.mem_singleton, List.mem_map, List.mem_cons, List.not_mem_nil, or_false,
      Option.mem_toList, Option.map_eq_some_iff] at hi
    rcases hi with ((rfl | ⟨p, hp, rfl⟩) | (rfl | rfl)) | ⟨e, he, rfl⟩
    · exact ref_hex _ h.tree
    · exact ref_hex _ (h.parents p hp)
    · refine ⟨made_person more h.author, ?_⟩
      rw [made_text more h.author]
      refine mem _ (by simp [MadeCommit.lines]) ?_
      rw [List.mem_append]
      rintro (h1 | h1)
      · revert h1; decide
      · exact made_noLF more h.author h1
    · refine ⟨made_person more h.committer, ?_⟩
      rw [made_text more h.committer]
      refine mem _ (by simp [MadeCommit.lines]) ?_
      rw [List.mem_append]
      rintro (h1 | h1)
      · revert h1; decide
      · exact made_noLF more h.committer h1
    · refine mem _ (by simp [MadeCommit.lines, he]) ?_
      rw [List.mem_append]
      rintro (h1 | h1)
      · revert h1; decide
      · exact h.encoding e he h1
  · intro x t hx
    simp [firstItems] at hx
  · intro l hl
    refine hf l ?_
    unfold MadeCommit.lines
    exact List.mem_append.2 (.inl (List.mem_append.2 (.inr hl)))
  · intro x t l hl _
    have := List.mem_of_getLast? hl
    simp [firstItems] at this

/-! ## What they mean -/

theorem foldl_madeParents (ps : List Bytes) (c : Commit) :
    (ps.map fun p => Item.parent (hex p) p).foldl Item.apply c = { c with parents := c.parents ++ ps.map gitLink } := by
  induction ps generalizing c with
  | nil => simp
  | cons p ps ih => simp [ih, Item.apply]

theorem foldl_madeOthers (ls : List Bytes) (c : Commit) :
    (ls.map Item.other).foldl Item.apply c = { c with other := c.other ++ ls } := by
  induction ls generalizing c with
  | nil => simp
  | cons l ls ih => simp [ih, Item.apply]

theorem foldl_madeExtra (more : Bytes) (xs : List Extra) (c : Commit) :
    (xs.flatMap (extraItems more)).foldl Item.apply c =
      { c with
        mergetag := c.mergetag ++ xs.filterMap (Extra.merged more)
        other := c.other ++ xs.flatMap Extra.unknown } := by
  induction xs generalizing c with
  | nil => simp
  | cons x xs ih =>
    rw [List.flatMap_cons, List.foldl_append, ih]
    cases x with
    | mergetag t => simp [extraItems, Item.apply, Extra.merged, Extra.unknown]
    | other k v =>
      rw [List.filterMap_cons_none rfl]
      simp [extraItems, foldl_madeOthers, Extra.unknown]

theorem commitOf_written (more : Bytes) (g : MadeCommit) :
    commitOf (writtenItems more g) g.msg = { g.node more with signature := none } := by
  unfold commitOf writtenItems firstItems
  rw [List.foldl_append, foldl_madeExtra, List.foldl_append, List.foldl_append, List.foldl_append, foldl_madeParents]
  cases he : g.encoding <;> simp [Item.apply, noCommit, MadeCommit.node, he]

/-! ## Their order -/

/-- The place of an item in the encoder's order. -/
def itemRank : Item → Nat
  | .tree _ _ => 0
  | .parent _ _ => 1
  | .author _ => 2
  | .committer _ => 3
  | .encoding _ => 4
  | .mergetag _ _ => 5
  | .sig _ => 6
  | .other _ => 7

theorem order_ranked {is : List Item} (h : EncoderOrder is) : is.Pairwise fun a b => itemRank a ≤ itemRank b := by
  obtain ⟨tree, parents, a, k, enc, merges, sig, others, rfl⟩ := h
  have hm : ∀ {α : Type} (f : α → Item) (n : Nat) (l : List α), (∀ x, itemRank (f x) = n) →
      (l.map f).Pairwise fun a b => itemRank a ≤ itemRank b := by
    intro α f n l hf
    rw [List.pairwise_map]
    exact List.pairwise_of_forall fun x y => by rw [hf, hf]; omega
  have ho : ∀ {α : Type} (f : α → Item) (o : Option α), (o.map f).toList.Pairwise fun a b => itemRank a ≤ itemRank b := by
    intro α f o
    cases o <;> simp
  simp only [List.pairwise_append]
  refine ⟨⟨⟨⟨⟨⟨by simp, hm _ 1 _ fun _ => rfl, ?_⟩, by simp [itemRank], ?_⟩, ho _ _, ?_⟩, hm _ 5 _ fun _ => rfl, ?_⟩, ho _ _, ?_⟩,
    hm _ 7 _ fun _ => rfl, ?_⟩
  all_goals
    intro x hx y hy
    simp only [List.mem_append, List.mem_singleton, List.mem_map, List.mem_cons, List.not_mem_nil, or_false,
      Option.mem_toList, Option.map_eq_some_iff] at hx hy
  · obtain ⟨_, _, rfl⟩ := hy; subst hx; simp [itemRank]
  · rcases hy with rfl | rfl <;> rcases hx with rfl | ⟨_, _, rfl⟩ <;> simp [itemRank]
  · obtain ⟨_, _, rfl⟩ := hy
    rcases hx with (rfl | ⟨_, _, rfl⟩) | (rfl | rfl) <;> simp [itemRank]
  · obtain ⟨_, _, rfl⟩ := hy
    rcases hx with ((rfl | ⟨_, _, rfl⟩) | (rfl | rfl)) | ⟨_, _, rfl⟩ <;> simp [itemRank]
  · obtain ⟨_, _, rfl⟩ := hy
    rcases hx with (((rfl | ⟨_, _, rfl⟩) | (rfl | rfl)) | ⟨_, _, rfl⟩) | ⟨_, _, rfl⟩ <;> simp [itemRank]
  · obtain ⟨_, _, rfl⟩ := hy
    rcases hx with ((((rfl | ⟨_, _, rfl⟩) | (rfl | rfl)) | ⟨_, _, rfl⟩) | ⟨_, _, rfl⟩) | ⟨_, _, rfl⟩ <;> simp [itemRank]

theorem extraLines_ne (k v : Bytes) : ∃ l r, extraLines k v = l :: r := by
  obtain ⟨x, r, he, _⟩ := extraLines_head k v
  exact ⟨_, _, he⟩

theorem extra_split (more : Bytes) (xs : List Extra)
    (h : (xs.flatMap (extraItems more)).Pairwise fun a b => itemRank a ≤ itemRank b) :
    ∃ (ms : List MadeTag) (os : List (Bytes × Bytes)),
      xs = ms.map .mergetag ++ os.map (fun o => .other o.1 o.2) := by
  induction xs with
  | nil => exact ⟨[], [], rfl⟩
  | cons x xs ih =>
    rw [List.flatMap_cons, List.pairwise_append] at h
    obtain ⟨ms, os, rfl⟩ := ih h.2.1
    cases x with
    | mergetag t => exact ⟨t :: ms, os, rfl⟩
    | other k v =>
      cases ms with
      | nil => exact ⟨[], (k, v) :: os, rfl⟩
      | cons m ms =>
        obtain ⟨l, r, he⟩ := extraLines_ne k v
        have := h.2.2 (.other l) (by simp [extraItems, he]) (.mergetag (hex m.object) (m.merged more))
          (by simp [extraItems])
        exact absurd this (by simp [itemRank])

theorem merge_items (more : Bytes) (ms : List MadeTag) :
    (ms.map Extra.mergetag).flatMap (extraItems more) =
      (ms.map (MadeTag.merged more)).map fun t => .mergetag (hex (digest t.object)) t := by
  induction ms with
  | nil => rfl
  | cons m ms ih => rw [List.map_cons, List.flatMap_cons, ih]; rfl

theorem other_items (more : Bytes) (os : List (Bytes × Bytes)) :
    (os.map fun o => Extra.other o.1 o.2).flatMap (extraItems more) =
      (os.flatMap fun o => extraLines o.1 o.2).map .other := by
  induction os with
  | nil => rfl
  | cons o os ih => simp only [List.map_cons, List.flatMap_cons, ih, List.map_append]; rfl

theorem order_unsigned (more : Bytes) (g : MadeCommit) (hs : g.sig = none) :
    EncoderOrder (writtenItems more g) ↔ Reproduced g := by
  constructor
  · intro h
    have := order_ranked h
    unfold writtenItems at this
    obtain ⟨ms, os, he⟩ := extra_split more g.extra (List.pairwise_append.1 this).2.1
    exact ⟨ms, os, he, fun h => absurd hs h⟩
  · rintro ⟨ms, os, he, _⟩
    refine ⟨g.tree, g.parents, g.author.person more, g.committer.person more, g.encoding, ms.map (MadeTag.merged more), none, os.flatMap fun o => extraLines o.1 o.2, ?_⟩
    unfold writtenItems firstItems
    rw [he, List.flatMap_append, merge_items, other_items]
    simp

theorem order_signed (more : Bytes) (g : MadeCommit) (x : Bytes) (hs : g.sig ≠ none) :
    EncoderOrder (writtenItems more g ++ [.sig x]) ↔ Reproduced g := by
  constructor
  · intro h
    have := List.pairwise_append.1 (order_ranked h)
    obtain ⟨ms, os, he⟩ := extra_split more g.extra (by
      have := this.1
      unfold writtenItems at this
      exact (List.pairwise_append.1 this).2.1)
    refine ⟨ms, os, he, fun _ => ?_⟩
    cases os with
    | nil => rfl
    | cons o os =>
      obtain ⟨l, r, hl⟩ := extraLines_ne o.1 o.2
      have := this.2.2 (.other l) (by
        unfold writtenItems
        rw [he, List.flatMap_append, other_items]
        simp [hl]) (.sig x) (by simp)
      exact absurd this (by simp [itemRank])
  · rintro ⟨ms, os, he, ho⟩
    have := ho hs
    subst this
    refine ⟨g.tree, g.parents, g.author.person more, g.committer.person more, g.encoding, ms.map (MadeTag.merged more), some x, [], ?_⟩
    unfold writtenItems firstItems
    rw [he, List.flatMap_append, merge_items]
    simp

/-! ## The theorems -/

/-- What git makes of any tree, parents, names, emails, dates, encoding, extra
headers, message and signature, its header lines fitting the buffer: it is read
exactly if the signature is absent or a PGP signature with a plain start, and
refused with the error of a bad signature otherwise. What is read is what git was
given. It is written again byte for byte exactly if the merge tags are before the
other extra headers and, in a signed commit, there are no others. -/
theorem written_commit (N : Nat) (hN : 4096 ≤ N) (more : Bytes) (g : MadeCommit) (h : g.Ok) (hf : LinesFit N (g.lines more))
    (out : Bytes) (hout : Framed b!"commit" (g.body more) out) (hlen : (g.body more).length < 2 ^ 63) :
    (ReadableSig g.sig → parseObject (σ := Stream) ⟨out, .eof, N⟩ = .ok (.commit (g.node more)) ∧
      (encObj (.commit (g.node more)) = .ok out ↔ Reproduced g)) ∧
    (¬ ReadableSig g.sig → parseObject (σ := Stream) ⟨out, .eof, N⟩ = .err .badSig) := by
  have hok := written_ok more g h hf
  have hcommit := commitOf_written more g
  cases hs : g.sig with
  | none =>
    have hbody : g.body more = itemsBody (writtenItems more g) g.msg := by
      unfold MadeCommit.body itemsBody
      rw [itemsText_written more g h, hs]
      simp [sigHeaderLines, unlines]
    rw [hbody] at hout hlen
    have hnode : commitOf (writtenItems more g) g.msg = g.node more := by
      rw [hcommit]
      simp [MadeCommit.node, hs]
    have hp : parseObject (σ := Stream) ⟨out, .eof, N⟩ = .ok (.commit (g.node more)) := by
      rw [parse_commit_framed hout _ _ hlen, commitRun_itemsBody _ _ N hN hok, hnode]
      rfl
    obtain ⟨c, hc, he⟩ := commit_bytes_exact N hN _ hok g.msg out hout hlen
    rw [hp] at hc
    simp only [Res.ok.injEq, Obj.commit.injEq] at hc
    subst hc
    exact ⟨fun _ => ⟨hp, he.trans (order_unsigned more g hs)⟩, fun hn => absurd trivial hn⟩
  | some s =>
    obtain ⟨f, ls⟩ := s
    have hbody : g.body more = signedBody (writtenItems more g) [] (sigHeader f ls) g.msg := by
      unfold MadeCommit.body signedBody
      rw [itemsText_written more g h, hs]
      simp [sigHeaderLines, sigHeader, headerText, unlines, itemsText, SP]
    rw [hbody] at hout hlen
    obtain ⟨ha, hLF⟩ := h.sig f ls hs
    have hl : ∀ l ∈ ls, HeaderLine N (SP :: l) := by
      intro l hl
      have hm : SP :: l ∈ g.lines more := by
        unfold MadeCommit.lines
        rw [hs]
        refine List.mem_append.2 (.inr ?_)
        simp [sigHeaderLines, hl]
      refine ⟨?_, (hf _ hm).2, (hf _ hm).1⟩
      simp only [List.mem_cons, not_or]
      exact ⟨by decide, hLF l hl⟩
    have hex := signed_exact N hN (writtenItems more g) [] hok trivial (by simp) f ls ha hl g.msg out hout hlen
    refine ⟨fun hr => ?_, fun hn => hex.2 hn⟩
    have hp := hex.1 hr
    have hnode : ({ commitOf (writtenItems more g ++ []) g.msg with signature := some (Spec.sigLines ls) } : Commit) = g.node more := by
      rw [List.append_nil, hcommit]
      simp [MadeCommit.node, hs, Spec.sigLines]
    rw [hnode] at hp
    obtain ⟨rfl, hplain⟩ := hr
    rw [signedBody_items] at hout hlen
    obtain ⟨c, hc, he⟩ := commit_bytes_exact N hN _ (itemsOk_signed (js := []) hok trivial (signed_ok ha hl hplain)) g.msg out hout hlen
    rw [hp] at hc
    simp only [Res.ok.injEq, Obj.commit.injEq] at hc
    subst hc
    exact ⟨hp, he.trans (order_signed more g _ (by rw [hs]; simp))⟩

/-- A commit without extra headers, signed with PGP or not, is reproduced. -/
theorem written_plain (N : Nat) (hN : 4096 ≤ N) (more : Bytes) (g : MadeCommit) (h : g.Ok) (hf : LinesFit N (g.lines more))
    (hx : g.extra = []) (hr : ReadableSig g.sig)
    (out : Bytes) (hout : Framed b!"commit" (g.body more) out) (hlen : (g.body more).length < 2 ^ 63) :
    ∃ c, parseObject (σ := Stream) ⟨out, .eof, N⟩ = .ok (.commit c) ∧ encObj (.commit c) = .ok out := by
  obtain ⟨h1, h2⟩ := (written_commit N hN more g h hf out hout hlen).1 hr
  exact ⟨_, h1, h2.2 ⟨[], [], by simp [hx], fun _ => rfl⟩⟩

/-- What `git tag` makes is read, and written again byte for byte exactly if the
message is not empty. -/
theorem written_tag (N : Nat) (hN : 4096 ≤ N) (more : Bytes) (t : MadeTag) (h : t.Ok) (hf : LinesFit N (t.lines more))
    (out : Bytes) (hout : Framed b!"tag" (t.body more) out) :
    parseObject (σ := Stream) ⟨out, .eof, N⟩ = .ok (.tag (t.node more)) ∧
      (encObj (.tag (t.node more)) = .ok out ↔ t.msg ≠ []) := by
  have hLF := tagLines_noLF more h
  have mk : ∀ l ∈ t.lines more, HeaderLine N l := fun l hl => ⟨hLF l hl, (hf l hl).2, (hf l hl).1⟩
  let is : List TagItem := [.object (hex t.object) t.object, .typ t.typ, .tag t.name, .tagger (t.tagger.person more)]
  have hbody : t.body more = tagItemsText is ++ messageText (some t.msg) := by
    simp [MadeTag.body, MadeTag.lines, tagItemsText, is, TagItem.line, messageText, made_text more h.tagger]
  have hok : ∀ i ∈ is, i.Ok N := by
    intro i hi
    simp only [is, List.mem_cons, List.not_mem_nil, or_false] at hi
    rcases hi with rfl | rfl | rfl | rfl
    · exact ref_hex _ h.object
    · exact mk _ (by simp [MadeTag.lines])
    · exact mk _ (by simp [MadeTag.lines])
    · refine ⟨made_person more h.tagger, ?_⟩
      rw [made_text more h.tagger]
      exact mk _ (by simp [MadeTag.lines])
  rw [hbody] at hout
  have hp := parse_tagItems N hN is hok (some t.msg) out hout
  obtain ⟨t', ht, he⟩ := tag_bytes_exact N hN is hok (some t.msg) out hout
  have hnode : tagOf is ((some t.msg).getD []) = t.node more := rfl
  rw [hnode] at hp
  rw [hp] at ht
  simp only [Res.ok.injEq, Obj.tag.injEq] at ht
  subst ht
  refine ⟨hp, he.trans ⟨fun h => by simpa using h.2, fun h => ⟨⟨_, _, _, _, rfl⟩, by simpa using h⟩⟩⟩

/-! ## Cases -/

/-- The punctuation marks that git 2.40 strips. -/
def marks : Bytes := b!",:;\"\\'"

/-- A person whose name git cleans. -/
def madeIdent : MadeIdent := ⟨b!" <A. \"U\" Thor>, ", b!"<a@x>", b!"1700000000", b!"-0330"⟩

theorem madeIdent_ok : madeIdent.Ok := by
  refine ⟨⟨1700000000, by decide, ?_, by decide, by decide +kernel⟩, ⟨45, b!"0330", rfl, .inr rfl, rfl, ?_⟩⟩ <;>
  · simp only [Digit, madeIdent]
    decide

example : madeIdent.text marks = b!"A. \"U\" Thor <a@x> 1700000000 -0330" := by decide +kernel

/-- A tag, signed within its message. -/
def madeTag : MadeTag := ⟨List.replicate 20 7, b!"commit", b!"v1.0", madeIdent, b!"First\n\n-----BEGIN PGP SIGNATURE-----\n"⟩

theorem madeTag_ok : madeTag.Ok := ⟨by decide, by decide, by unfold madeTag; decide, madeIdent_ok⟩

example : LinesFit 4096 (madeTag.lines marks) ∧ madeTag.msg ≠ [] := by
  refine ⟨?_, by decide⟩
  unfold LinesFit
  decide +kernel

/-- A merge of that tag, signed, with the extra headers `xs` besides. -/
def madeCommit (xs : List Extra) (f : SigFormat) (ls : List Bytes) : MadeCommit :=
  ⟨List.replicate 20 1, [List.replicate 20 2, List.replicate 20 3], madeIdent, madeIdent, some b!"latin1",
    .mergetag madeTag :: xs, some (f, ls), b!"Merge\n"⟩

theorem madeCommit_ok (xs : List Extra) (hx : ∀ x ∈ xs, x.Ok) {f : SigFormat} {ls : List Bytes} (ha : Armour f ls)
    (hl : ∀ l ∈ ls, LF ∉ l) : (madeCommit xs f ls).Ok := by
  refine ⟨by simp [madeCommit], by simp [madeCommit], madeIdent_ok, madeIdent_ok, ?_, ?_, ?_⟩
  · intro e he
    have : b!"latin1" = e := by simpa [madeCommit] using he
    subst this
    decide
  · intro x h
    rcases List.mem_cons.1 h with rfl | h
    · exact madeTag_ok
    · exact hx x h
  · intro f' ls' he
    have : f = f' ∧ ls = ls' := by simpa [madeCommit] using he
    obtain ⟨rfl, rfl⟩ := this
    exact ⟨ha, hl⟩

/-- With no other extra header it is reproduced. -/
example : (madeCommit [] .pgp pgpLines).Ok ∧ LinesFit 4096 ((madeCommit [] .pgp pgpLines).lines marks) ∧
    ReadableSig (madeCommit [] .pgp pgpLines).sig ∧ Reproduced (madeCommit [] .pgp pgpLines) := by
  refine ⟨madeCommit_ok [] (by simp) pgpLines_ok.1 (by decide), ?_, ⟨rfl, pgpLines_ok.2.1⟩,
    ⟨[madeTag], [], rfl, fun _ => rfl⟩⟩
  unfold LinesFit
  decide +kernel

/-- With one it is read and changed. -/
example : (madeCommit [.other b!"HG:extra" b!"a\nb"] .pgp pgpLines).Ok ∧
    LinesFit 4096 ((madeCommit [.other b!"HG:extra" b!"a\nb"] .pgp pgpLines).lines marks) ∧
    ¬ Reproduced (madeCommit [.other b!"HG:extra" b!"a\nb"] .pgp pgpLines) := by
  refine ⟨madeCommit_ok _ ?_ pgpLines_ok.1 (by decide), ?_, ?_⟩
  · intro x hx
    rw [List.mem_singleton] at hx
    subst hx
    exact ⟨by decide, by decide, by decide, by decide⟩
  · unfold LinesFit
    decide +kernel
  · rintro ⟨ms, os, he, ho⟩
    have := ho (by simp [madeCommit])
    subst this
    have h : Extra.other b!"HG:extra" b!"a\nb" ∈ ms.map Extra.mergetag := by
      have : (madeCommit [.other b!"HG:extra" b!"a\nb"] .pgp pgpLines).extra = ms.map Extra.mergetag := by simpa using he
      rw [← this]
      simp [madeCommit]
    simp at h

/-- With an SSH signature it is refused. -/
example : ¬ ReadableSig (madeCommit [] .ssh [b!"U1NIU0lH"]).sig := fun h => by cases h.1

end Verif.Props
