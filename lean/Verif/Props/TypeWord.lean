import Verif.Spec.TypeWord
import Verif.Props.Accept
import Verif.Props.Outcome
import Verif.Props.View
import Verif.Props.GitRead

/-!
# C126 An object under another type word
-/

namespace Verif.Props

open Verif Spec

theorem linesWith_none {ws ls : List Bytes} (h : Without ws ls) {w : Bytes} (hw : w ∈ ws) : linesWith w ls = [] := by
  unfold linesWith
  rw [List.filter_eq_nil_iff]
  intro l hl
  have := h w hw l hl
  rwa [← List.isPrefixOf_iff_prefix] at this

theorem behind_none {ws ls : List Bytes} (h : Without ws ls) {w : Bytes} (hw : w ∈ ws) : behind w ls = [] := by
  unfold behind
  rw [linesWith_none h hw]
  rfl

theorem nul_apart {x y r s : Bytes} (hx : NUL ∉ x) (hy : NUL ∉ y) (h : x ++ NUL :: r = y ++ NUL :: s) : x = y ∧ r = s := by
  induction x generalizing y with
  | nil =>
    cases y with
    | nil => exact ⟨rfl, (List.cons.inj h).2⟩
    | cons c y => exact absurd (List.cons.inj h).1 fun e => hy (by simp [← e])
  | cons a x ih =>
    cases y with
    | nil => exact absurd (List.cons.inj h).1 fun e => hx (by simp [e])
    | cons c y =>
      simp only [List.cons_append, List.cons.injEq] at h
      obtain ⟨h1, h2⟩ := ih (fun h => hx (List.mem_cons_of_mem _ h)) (fun h => hy (List.mem_cons_of_mem _ h)) h.2
      exact ⟨by rw [h.1, h1], h2⟩

/-- Any text without the header words of a tag is a tag: without object, type, name and
tagger, and with everything behind the first empty line as its message. What Encode
writes for it is not read again by any buffer of at least 8 bytes. -/
theorem word_tag {N : Nat} (hN : 2 ≤ N) {d body : Bytes} (hd : NUL ∉ d) {ls : List Bytes} {m : Option Bytes}
    (hb : Head N body ls m) (hw : Without tagHeads ls) :
    parseObject (σ := Stream) ⟨fileAs b!"tag" d body, .eof, N⟩ = .ok (.tag { Tag.zero with message := m.getD [] }) ∧
    ∃ x, encodeBytes (.own (.tag { Tag.zero with message := m.getD [] })) = .ok x ∧
      ∀ K o, 8 ≤ K → parseObject (σ := Stream) ⟨x, .eof, K⟩ ≠ .ok o := by
  constructor
  · refine (tag_accepts _ hN _).2 ⟨rfl, d, body, ls, m, hd, by simp [fileAs], hb, ?_⟩
    refine ⟨?_, ?_, ?_, ?_, rfl⟩
    · rw [behind_none hw (by decide)]; exact ⟨[], trivial, rfl⟩
    · rw [behind_none hw (by decide)]; rfl
    · rw [behind_none hw (by decide)]; rfl
    · rw [linesWith_none hw (by decide)]; exact ⟨[], trivial, rfl⟩
  · obtain ⟨x, hx⟩ : ∃ x, encodeBytes (.own (.tag { Tag.zero with message := m.getD [] })) = .ok x := by
      rw [encode_tag_own]
      exact ⟨_, rfl⟩
    refine ⟨x, hx, fun K o hK h => ?_⟩
    have hx : withHeader b!"tag" (b!"object " ++ LF :: (b!"type \ntag \ntagger " ++ gitString .zero ++ LF ::
        (if m.getD [] ≠ [] then LF :: m.getD [] else []))) = x := by
      rw [encode_tag_own] at hx
      simp only [encTag, Tag.zero, linkSha, Res.bind_ok, Res.ok.injEq] at hx
      rw [← hx]
      simp [hexEncode]
    rw [← hx] at h
    generalize (b!"type \ntag \ntagger " ++ gitString PersonInfo.zero ++ LF ::
        (if m.getD [] ≠ [] then LF :: m.getD [] else [])) = r at h
    have hr : withHeader b!"tag" (b!"object " ++ LF :: r) =
        b!"tag " ++ decimal (b!"object " ++ LF :: r).length ++ NUL :: (b!"object " ++ LF :: r) := by simp [withHeader]
    rw [hr] at h
    have ht : ∃ t, o = .tag t := by
      rw [parse_tag_nul _ _ _ _ (nul_notin_decimal _)] at h
      obtain ⟨t, _, h⟩ := Res.bind_eq_ok.1 h
      exact ⟨t, (Res.ok.inj h).symm⟩
    obtain ⟨t, rfl⟩ := ht
    obtain ⟨_, d', body', ls', m', hd', he, hb', hm⟩ := (tag_accepts _ (Nat.le_trans (by decide) hK) _).1 h
    simp only [List.append_assoc, List.append_cancel_left_eq] at he
    obtain ⟨_, rfl⟩ := nul_apart (nul_notin_decimal _) hd' he
    obtain ⟨ls'', rfl, _⟩ := head_line (Nat.le_trans (by decide) hK)
      (.lf b!"object " r (by decide) (by decide) (Nat.lt_of_lt_of_le (by decide) hK)) (by decide) hb'
    obtain ⟨ys, hp, _⟩ := hm.object
    have hcons : behind b!"object " (b!"object " :: ls'') = [] :: behind b!"object " ls'' := by
      simp [behind, linesWith]
    rw [hcons] at hp
    cases ys with
    | nil => exact hp.elim
    | cons y ys =>
      obtain ⟨⟨sha, ⟨hh, hl⟩, _⟩, _⟩ := hp
      cases sha with
      | nil => cases hl
      | cons a sha => cases hh

theorem head_blocks {N : Nat} {b : Bytes} {ls : List Bytes} {m : Option Bytes} (h : Head N b ls m)
    (hw : Without knownHeaders ls) : Blocks N b (ls.map .line) m := by
  induction h with
  | done => exact .done
  | blank b r h => exact .blank b r h
  | line b l r ls m h hne _ ih =>
    exact .line b l r _ m h hne (hw _ (by decide) l (by simp)) (hw _ (by decide) l (by simp))
      (ih fun w hw' x hx => hw w hw' x (by simp [hx]))

theorem plainLines_map (ls : List Bytes) : plainLines (ls.map .line) = ls := by
  induction ls with
  | nil => rfl
  | cons l ls ih => simpa [plainLines] using ih

theorem signatures_map (ls : List Bytes) : signatures (ls.map .line) = [] := by
  induction ls with
  | nil => rfl
  | cons l ls ih => simp [signatures]

theorem mergeTags_map (ls : List Bytes) : mergeTags (ls.map .line) = [] := by
  induction ls with
  | nil => rfl
  | cons l ls ih => simp [mergeTags]

/-- Any text without the header words of a commit, under a size that is a number, is a
commit: without tree, parents, author and committer, with its lines as other headers.
Encode panics on it. -/
theorem word_commit {N : Nat} (hN : 2 ≤ N) {d : Bytes} {z : Int} (hd : SizeField d z) {body : Bytes} {ls : List Bytes}
    {m : Option Bytes} (hb : Head N body ls m) (hw : Without knownHeaders ls) :
    parseObject (σ := Stream) ⟨fileAs b!"commit" d body, .eof, N⟩ =
      .ok (.commit { Commit.zero with other := ls, message := m.getD [] }) ∧
    encodeBytes (.own (.commit { Commit.zero with other := ls, message := m.getD [] })) = .panic := by
  constructor
  · refine (commit_accepts _ hN _).2 ⟨rfl, d, z, body, _, m, hd, by simp [fileAs], head_blocks hb hw, ?_⟩
    refine ⟨?_, ?_, ?_, ?_, ?_, ?_, ?_, ?_, rfl⟩
    · rw [plainLines_map, behind_none hw (by decide)]; exact ⟨[], trivial, rfl⟩
    · rw [plainLines_map, behind_none hw (by decide)]; trivial
    · rw [plainLines_map, linesWith_none hw (by decide)]; exact ⟨[], trivial, rfl⟩
    · rw [plainLines_map, linesWith_none hw (by decide)]; exact ⟨[], trivial, rfl⟩
    · rw [plainLines_map, behind_none hw (by decide)]; rfl
    · rw [mergeTags_map]; trivial
    · rw [signatures_map]; exact ⟨by simp, rfl⟩
    · rw [plainLines_map]
      symm
      refine List.filter_eq_self.2 fun l hl => ?_
      rw [List.all_eq_true]
      intro w hk
      have := hw w hk l hl
      rw [← List.isPrefixOf_iff_prefix, Bool.not_eq_true] at this
      rw [this]
      rfl
  · exact ((value_outcome (.commit _)).2).2 (.inl rfl)

/-- Any text without NUL is a tree: the empty one. -/
theorem word_tree {d : Bytes} {z : Int} (hd : SizeField d z) {body : Bytes} (hb : NUL ∉ body) (N : Nat) :
    ∃ t, parseObject (σ := Stream) ⟨fileAs b!"tree" d body, .eof, N⟩ = .ok (.tree t) ∧ t.t = [] := by
  refine (tree_accepts _ _).2 ⟨rfl, d, z, [], body, hd, by simp [fileAs, treeBody], by constructor <;> simp, ?_, rfl⟩
  by_cases h : SP ∈ body
  · obtain ⟨x, y, rfl, hx⟩ := List.eq_append_cons_of_mem h
    exact .inr ⟨x, y, hx, fun h => hb (by simp [h]), .inl rfl⟩
  · exact .inl h

theorem heads_apart {w v l : Bytes} (hw : w ∈ knownHeaders) (hv : v ∈ tagHeads) (hp : w <+: l) (hq : v <+: l) : False := by
  have hno : ∀ w ∈ knownHeaders, ∀ v ∈ tagHeads, ¬ w <+: v ∧ ¬ v <+: w := by decide
  rcases List.prefix_or_prefix_of_prefix hp hq with h | h
  · exact (hno w hw v hv).1 h
  · exact (hno w hw v hv).2 h

/-- A tag in which every header line begins with one of its words, as git writes it, is
also a commit, and its message is that of the commit. -/
theorem word_tag_commit {N : Nat} (hN : 2 ≤ N) {d : Bytes} {z : Int} (hd : SizeField d z) {body : Bytes} {t : Tag}
    (h : parseObject (σ := Stream) ⟨fileAs b!"tag" d body, .eof, N⟩ = .ok (.tag t)) {ls : List Bytes} {m : Option Bytes}
    (hb : Head N body ls m) (hl : ∀ l ∈ ls, ∃ w ∈ tagHeads, w <+: l) :
    parseObject (σ := Stream) ⟨fileAs b!"commit" d body, .eof, N⟩ =
      .ok (.commit { Commit.zero with other := ls, message := t.message }) := by
  have hw : Without knownHeaders ls := by
    intro w hw l hl' hp
    obtain ⟨v, hv, hq⟩ := hl l hl'
    exact heads_apart hw hv hp hq
  rw [(word_commit hN hd hb hw).1]
  obtain ⟨_, d', body', ls', m', hd', he, hb', hm⟩ := (tag_accepts _ hN _).1 h
  have : d ++ NUL :: body = d' ++ NUL :: body' := by simpa [fileAs] using he
  obtain ⟨rfl, rfl⟩ := nul_apart hd.1 hd' this
  obtain ⟨rfl, rfl⟩ := head_unique hN hb hb'
  rw [hm.message]

theorem blocks_head {N : Nat} {b : Bytes} {bs : List Spec.Block} {m : Option Bytes} (h : Blocks N b bs m)
    (hs : signatures bs = []) (hm : mergeTags bs = []) : Head N b (plainLines bs) m := by
  induction h with
  | done => exact .done
  | blank b r h => exact .blank b r h
  | line b l r bs m h hne _ _ _ ih =>
    refine .line b l r _ m h hne (ih ?_ ?_)
    · simpa [signatures] using hs
    · simpa [mergeTags] using hm
  | sig => simp [signatures] at hs
  | merge => simp [mergeTags] at hm
  | cut => simp [mergeTags] at hm

/-- A commit without signature and merged tags, in which no other header begins with a
word of a tag, is also a tag, and its message is that of the tag. -/
theorem word_commit_tag {N : Nat} (hN : 2 ≤ N) {d body : Bytes} {c : Commit}
    (h : parseObject (σ := Stream) ⟨fileAs b!"commit" d body, .eof, N⟩ = .ok (.commit c)) (hd : NUL ∉ d)
    (hs : c.signature = none) (ht : c.mergetag = []) (ho : Without tagHeads c.other) :
    parseObject (σ := Stream) ⟨fileAs b!"tag" d body, .eof, N⟩ = .ok (.tag { Tag.zero with message := c.message }) := by
  obtain ⟨_, d', z, body', bs, m, hd', he, hb, hm⟩ := (commit_accepts _ hN _).1 h
  have : d ++ NUL :: body = d' ++ NUL :: body' := by simpa [fileAs] using he
  obtain ⟨rfl, rfl⟩ := nul_apart hd hd'.1 this
  have h1 : signatures bs = [] := by
    have := hm.signature.2
    rw [hs] at this
    cases hg : signatures bs with
    | nil => rfl
    | cons x xs => rw [hg] at this; simp [List.getLast?_cons] at this
  have h2 : mergeTags bs = [] := by
    have := hm.mergetag
    rw [ht] at this
    cases hg : mergeTags bs with
    | nil => rfl
    | cons x xs => rw [hg] at this; exact this.elim
  have hw : Without tagHeads (plainLines bs) := by
    intro w hw l hl hp
    by_cases hk : ∃ v ∈ knownHeaders, v <+: l
    · obtain ⟨v, hv, hq⟩ := hk
      exact heads_apart hv hw hq hp
    · refine ho w hw l ?_ hp
      rw [hm.other, List.mem_filter]
      refine ⟨hl, ?_⟩
      rw [List.all_eq_true]
      intro v hv
      have hn : ¬ v <+: l := fun h => hk ⟨v, hv, h⟩
      rw [← List.isPrefixOf_iff_prefix, Bool.not_eq_true] at hn
      rw [hn]
      rfl
  rw [(word_tag hN hd (blocks_head hb h1 h2) hw).1, hm.message]

theorem sigBody_head {N : Nat} {b r : Bytes} {ls : List Bytes} (h : SigBody N b ls r) (hs : [] ∉ ls) {xs : List Bytes}
    {m : Option Bytes} (hr : Head N r xs m) : ∃ ys, Head N b ys m := by
  induction h with
  | stop b r h => exact ⟨_, .line _ _ _ _ _ h (by decide) hr⟩
  | more b l r r' ls h _ _ ih =>
    simp only [List.mem_cons, not_or] at hs
    obtain ⟨ys, hy⟩ := ih hs.2 hr
    exact ⟨_, .line _ _ _ _ _ h (fun e => hs.1 e.symm) hy⟩

theorem mergeHead_head {N : Nat} {b r : Bytes} {ls : List Bytes} (h : MergeHead N b ls r) (hs : [] ∉ ls) {xs : List Bytes}
    {m : Option Bytes} (hr : Head N r xs m) : ∃ ys, Head N b ys m := by
  induction h with
  | stop b r h => exact ⟨_, .line _ _ _ _ _ h (by decide) hr⟩
  | more b l r r' ls h _ _ ih =>
    simp only [List.mem_cons, not_or] at hs
    obtain ⟨ys, hy⟩ := ih hs.2 hr
    exact ⟨_, .line _ _ _ _ _ h (fun e => hs.1 e.symm) hy⟩

theorem mergeMsg_head {N : Nat} {b r : Bytes} {ls : List Bytes} (h : MergeMsg N b ls r) {xs : List Bytes}
    {m : Option Bytes} (hr : Head N r xs m) : ∃ ys, Head N b ys m := by
  induction h with
  | stop b l r h _ => exact ⟨_, hr⟩
  | more b l r r' ls h hsp _ ih =>
    obtain ⟨ys, hy⟩ := ih hr
    exact ⟨_, .line _ _ _ _ _ h (fun e => by rw [e] at hsp; cases hsp) hy⟩

theorem mergeCut_head {N : Nat} {b : Bytes} {ls : List Bytes} (h : MergeCut N b ls) (hs : [] ∉ ls) : Head N b ls none := by
  induction h with
  | stop => exact .done
  | more b l r ls h _ _ ih =>
    simp only [List.mem_cons, not_or] at hs
    exact .line _ _ _ _ _ h (fun e => hs.1 e.symm) (ih hs.2)

/-- With signatures and merged tags too, as long as they have no empty line: the first
empty line of the text is that before the message for a tag as for a commit. -/
theorem word_signed_tag {N : Nat} (hN : 2 ≤ N) {d body : Bytes} (hd : NUL ∉ d) {bs : List Spec.Block} {m : Option Bytes}
    (hb : Blocks N body bs m) (hs : ∀ b ∈ bs, Solid b) :
    ∃ ls, Head N body ls m ∧
      (Without tagHeads ls → ∀ c, parseObject (σ := Stream) ⟨fileAs b!"commit" d body, .eof, N⟩ = .ok (.commit c) →
        parseObject (σ := Stream) ⟨fileAs b!"tag" d body, .eof, N⟩ = .ok (.tag { Tag.zero with message := c.message })) := by
  have key : ∃ ls, Head N body ls m := by
    induction hb with
    | done => exact ⟨_, .done⟩
    | blank b r h => exact ⟨_, .blank b r h⟩
    | line b l r bs m h hne _ _ _ ih =>
      obtain ⟨ys, hy⟩ := ih fun b hb => hs b (by simp [hb])
      exact ⟨_, .line _ _ _ _ _ h hne hy⟩
    | sig b l r r' ls bs m h hg hl _ ih =>
      obtain ⟨ys, hy⟩ := ih fun b hb => hs b (by simp [hb])
      obtain ⟨zs, hz⟩ := sigBody_head hl (hs (.sig ls) (by simp)) hy
      exact ⟨_, .line _ _ _ _ _ h (fun e => by subst e; exact absurd hg (by decide)) hz⟩
    | merge b x r r1 r2 ls msg bs m h hh hl _ ih =>
      obtain ⟨ys, hy⟩ := ih fun b hb => hs b (by simp [hb])
      obtain ⟨zs, hz⟩ := mergeMsg_head hl hy
      obtain ⟨us, hu⟩ := mergeHead_head hh (hs (.merge x ls (some msg)) (by simp)) hz
      exact ⟨_, .line _ _ _ _ _ h (by simp) hu⟩
    | cut b x r ls h hh => exact ⟨_, .line _ _ _ _ _ h (by simp) (mergeCut_head hh (hs (.merge x ls none) (by simp)))⟩
  obtain ⟨ls, hl⟩ := key
  refine ⟨ls, hl, fun hw c h => ?_⟩
  obtain ⟨_, d', z, body', bs', m', hd', he, hb', hm⟩ := (commit_accepts _ hN _).1 h
  have : d ++ NUL :: body = d' ++ NUL :: body' := by simpa [fileAs] using he
  obtain ⟨rfl, rfl⟩ := nul_apart hd hd'.1 this
  obtain ⟨rfl, rfl⟩ := blocks_unique hN hb hb'
  rw [(word_tag hN hd hl hw).1, hm.message]

/-! ## Cases -/

/-- A text with an empty line that is neither a tag nor a commit, and a size. -/
example : Head 16 b!"a b\nc\n\nhi" [b!"a b", b!"c"] (some b!"hi") ∧ Without tagHeads [b!"a b", b!"c"] ∧
    Without knownHeaders [b!"a b", b!"c"] ∧ SizeField b!"9" 9 ∧ NUL ∉ b!"a b\nc\n\nhi" :=
  ⟨.line _ _ _ _ _ (.lf b!"a b" b!"c\n\nhi" (by decide) (by decide) (by decide)) (by decide)
     (.line _ _ _ _ _ (.lf b!"c" b!"\nhi" (by decide) (by decide) (by decide)) (by decide)
       (.blank _ _ (.lf [] b!"hi" (by decide) (by decide) (by decide)))),
   by unfold Without; decide, by unfold Without; decide,
   ⟨by decide, ⟨b!"9", by decide, by simp [Digit], Or.inl ⟨rfl, by decide⟩⟩, by decide, by decide⟩, by decide⟩

/-- A tag with its words, read as a tag and as a commit. -/
example : parseObject (σ := Stream) ⟨fileAs b!"tag" b!"18" b!"type a\ntag b\n\nhi", .eof, 16⟩ =
      .ok (.tag { Tag.zero with typ := b!"a", tag := b!"b", message := b!"hi" }) ∧
    parseObject (σ := Stream) ⟨fileAs b!"commit" b!"18" b!"type a\ntag b\n\nhi", .eof, 16⟩ =
      .ok (.commit { Commit.zero with other := [b!"type a", b!"tag b"], message := b!"hi" }) := by
  decide +kernel

/-- A signed commit, read as a commit and as a tag. -/
example : parseObject (σ := Stream) ⟨fileAs b!"commit" b!"0"
        b!"encoding x\ngpgsig -----BEGIN PGP SIGNATURE-----\n \n abc\n -----END PGP SIGNATURE-----\n\nhi", .eof, 64⟩ =
      .ok (.commit { Commit.zero with encoding := some b!"x", signature := some b!" \n abc\n", message := b!"hi" }) ∧
    parseObject (σ := Stream) ⟨fileAs b!"tag" b!"0"
        b!"encoding x\ngpgsig -----BEGIN PGP SIGNATURE-----\n \n abc\n -----END PGP SIGNATURE-----\n\nhi", .eof, 64⟩ =
      .ok (.tag { Tag.zero with message := b!"hi" }) := by
  decide +kernel

end Verif.Props
