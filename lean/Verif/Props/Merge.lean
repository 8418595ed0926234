import Verif.Spec.Merge
import Verif.Props.GitWrite
import Verif.Props.Sign
import Verif.Props.Accept

/-!
# Getting a merged tag out of a merge commit, and putting one in
-/

namespace Verif.Props

open Verif Spec

/-- The lines of a text with an end after each. -/
theorem unlines_textLines {m : Bytes} (h : m ≠ []) : unlines (textLines m) = ended m := by
  induction m with
  | nil => exact absurd rfl h
  | cons b r ih =>
    by_cases hr : r = []
    · subst hr
      by_cases hb : b = LF
      · subst hb; rfl
      · simp [textLines, hb, unlines, ended]
    · have ih := ih hr
      have hl : (b :: r).getLast? = r.getLast? := by
        rw [List.getLast?_cons]
        cases h : r.getLast? with
        | none => exact absurd (List.getLast?_eq_none_iff.1 h) hr
        | some x => rfl
      have he : ended (b :: r) = b :: ended r := by
        unfold ended
        rw [hl]
        split <;> rfl
      rw [he, ← ih, textLines]
      split
      · rename_i hb; subst hb; rfl
      · cases ht : textLines r with
        | nil =>
          rw [ht] at ih
          have : ended r ≠ [] := by
            unfold ended
            split
            · exact hr
            · simp
          exact absurd ih.symm this
        | cons l ls => simp [unlines]

theorem textLines_lines {ls : List Bytes} (h : ∀ l ∈ ls, LF ∉ l) : textLines (unlines ls) = ls := by
  have := textLines_unlines ls h []
  simpa [textLines] using this

theorem detach_attach (t : Tag) : (detach (attach t)).message = unlines (textLines t.message) := by
  have hn := textLines_noLF t.message
  unfold detach attach
  dsimp only
  rw [textLines_lines]
  · simp [List.map_map, Function.comp_def]
  · intro l hl
    obtain ⟨x, hx, rfl⟩ := List.mem_map.1 hl
    simp only [List.mem_cons, not_or]
    exact ⟨by decide, hn x hx⟩

/-- The merged tag is the tag with the spaces. -/
theorem merged_attach (more : Bytes) (t : MadeTag) : t.merged more = attach (t.node more) := rfl

theorem detach_merged (more : Bytes) (t : MadeTag) :
    detach (t.merged more) = MadeTag.node more { t with msg := unlines (textLines t.msg) } := by
  have := detach_attach (t.node more)
  rw [merged_attach]
  show Tag.mk _ _ _ _ _ = Tag.mk _ _ _ _ _
  congr 1

theorem tagLine_fits {l : Bytes} {N : Nat} (hN : 4096 ≤ N) (more : Bytes) {t : MadeTag} (h : t.Ok)
    (hf : LinesFit N ((Extra.mergetag t).lines more)) (hl : l ∈ t.lines more) :
    l.length < N ∧ l.getLast? ≠ some CR := by
  rw [mergetag_lines more h] at hf
  have key : ∀ p x : Bytes, x ≠ [] → (p ++ x).length < N ∧ (p ++ x).getLast? ≠ some CR →
      x.length < N ∧ x.getLast? ≠ some CR := by
    intro p x hx h1
    refine ⟨by have := h1.1; rw [List.length_append] at this; omega, ?_⟩
    have h2 := h1.2
    rw [List.getLast?_append] at h2
    intro hc
    rw [hc] at h2
    exact h2 rfl
  simp only [MadeTag.lines, List.mem_cons, List.not_mem_nil, or_false] at hl
  rcases hl with rfl | rfl | rfl | rfl
  · exact key b!"mergetag " _ (by simp) (hf _ (by simp))
  · exact key b!" " _ (by simp) (hf _ (by simp))
  · exact key b!" " _ (by simp) (hf _ (by simp))
  · exact key b!" " _ (by simp) (hf _ (by simp))

theorem mem_tags {g : MadeCommit} {t : MadeTag} (h : t ∈ g.tags) : Extra.mergetag t ∈ g.extra := by
  obtain ⟨x, hx, he⟩ := List.mem_filterMap.1 h
  cases x with
  | mergetag t' =>
    simp only [Extra.tag?, Option.some.injEq] at he
    subst he
    exact hx
  | other k v => simp [Extra.tag?] at he

theorem tags_fit {N : Nat} (hN : 4096 ≤ N) (more : Bytes) {g : MadeCommit} (h : g.Ok) (hf : LinesFit N (g.lines more))
    {t : MadeTag} (ht : t ∈ g.tags) : t.Ok ∧ LinesFit N (t.lines more) := by
  have hm := mem_tags ht
  have hok : t.Ok := h.extra _ hm
  refine ⟨hok, fun l hl => tagLine_fits hN more hok (fun l hl => hf l ?_) hl⟩
  unfold MadeCommit.lines
  simp only [List.mem_append, List.mem_flatMap]
  exact .inl (.inr ⟨_, hm, hl⟩)

theorem merged_tags (more : Bytes) (g : MadeCommit) : (g.node more).mergetag = g.tags.map (MadeTag.merged more) := by
  show g.extra.filterMap (Extra.merged more) = _
  unfold MadeCommit.tags
  rw [List.map_filterMap]
  congr 1
  funext x
  cases x <;> rfl

theorem body_msg (more : Bytes) {t : MadeTag} {m : Bytes} (h : MadeTag.body more { t with msg := m } = t.body more) : m = t.msg := by
  have := List.append_cancel_left (as := unlines (t.lines more)) h
  exact (List.cons.inj this).2

/-- What Encode writes for a merged tag without the spaces. -/
theorem detached (N : Nat) (hN : 4096 ≤ N) (more : Bytes) {t : MadeTag} (h : t.Ok) (hf : LinesFit N (t.lines more))
    (hm : t.msg ≠ []) :
    encObj (.tag (detach (t.merged more))) = .ok (withHeader b!"tag" (MadeTag.body more { t with msg := ended t.msg })) := by
  rw [detach_merged, unlines_textLines hm]
  have he : ended t.msg ≠ [] := by unfold ended; split <;> simp [hm]
  exact ((written_tag N hN more { t with msg := ended t.msg } ⟨h.object, h.typ, h.name, h.tagger⟩ hf _
    (framed_withHeader _ _)).2).2 he

/-- A merge commit as git makes it is decoded. Its merged tags are in their order, and the
one without the spaces is written as the tag object that was merged exactly if the
message of that ends with a newline. As it is in the commit it never is. -/
theorem merge_out (N : Nat) (hN : 4096 ≤ N) (more : Bytes) (g : MadeCommit) (h : g.Ok) (hf : LinesFit N (g.lines more))
    (out : Bytes) (hout : Framed b!"commit" (g.body more) out) (hlen : (g.body more).length < 2 ^ 63)
    (hr : ReadableSig g.sig) :
    ∃ c, parseObject (σ := Stream) ⟨out, .eof, N⟩ = .ok (.commit c) ∧ c.mergetag.length = g.tags.length ∧
      ∀ (i : Nat) (t : MadeTag), g.tags[i]? = some t → ∃ mt, c.mergetag[i]? = some mt ∧
        ∀ tagObj, Framed b!"tag" (t.body more) tagObj →
          (encObj (.tag (detach mt)) = .ok tagObj ↔ t.msg.getLast? = some LF) ∧ encObj (.tag mt) ≠ .ok tagObj := by
  refine ⟨_, ((written_commit N hN more g h hf out hout hlen).1 hr).1, by rw [merged_tags, List.length_map], ?_⟩
  intro i t ht
  obtain ⟨hok, hfit⟩ := tags_fit hN more h hf (List.mem_of_getElem? ht)
  refine ⟨t.merged more, by rw [merged_tags, List.getElem?_map, ht]; rfl, ?_⟩
  intro tagObj hobj
  have hbytes := framed_eq hobj
  have empty : t.msg = [] → encObj (.tag (t.node more)) ≠ .ok tagObj := fun hm he =>
    ((written_tag N hN more t hok hfit tagObj hobj).2).1 he hm
  by_cases hm : t.msg = []
  · have e1 : t.merged more = t.node more := by
      unfold MadeTag.merged MadeTag.node
      rw [hm]; rfl
    have e2 : detach (t.merged more) = t.node more := by
      rw [detach_merged]
      unfold MadeTag.node
      rw [hm]; rfl
    rw [e2, e1]
    exact ⟨⟨fun h => absurd h (empty hm), fun h => by rw [hm] at h; cases h⟩, empty hm⟩
  · constructor
    · rw [detached N hN more hok hfit hm, hbytes]
      constructor
      · intro he
        have := body_msg more (withHeader_inj (Res.ok.inj he))
        unfold ended at this
        split at this
        · assumption
        · exact absurd this (by simp)
      · intro hl
        have : ended t.msg = t.msg := by unfold ended; rw [if_pos hl]
        rw [this]
    · have hlines : textLines t.msg ≠ [] := by
        intro h0
        have := unlines_textLines hm
        rw [h0] at this
        unfold ended at this
        split at this
        · exact hm this.symm
        · simp [unlines] at this
      have hx : unlines ((textLines t.msg).map (SP :: ·)) ≠ [] := by
        cases hc : textLines t.msg with
        | nil => exact absurd hc hlines
        | cons l ls => simp [unlines]
      have hw := ((written_tag N hN more { t with msg := unlines ((textLines t.msg).map (SP :: ·)) }
        ⟨hok.object, hok.typ, hok.name, hok.tagger⟩ hfit _ (framed_withHeader _ _)).2).2 hx
      intro he
      have e : MadeTag.node more { t with msg := unlines ((textLines t.msg).map (SP :: ·)) } = t.merged more := rfl
      rw [e, he] at hw
      have hb := body_msg more (withHeader_inj ((Res.ok.inj hw).symm.trans hbytes))
      have h1 : (unlines ((textLines t.msg).map (SP :: ·))).length = (ended t.msg).length + (textLines t.msg).length := by
        rw [← unlines_textLines hm]
        generalize textLines t.msg = ls
        induction ls with
        | nil => rfl
        | cons l ls ih =>
          simp only [unlines, List.map_cons, List.flatMap_cons, List.length_append, List.length_cons] at ih ⊢
          omega
      have h2 : t.msg.length ≤ (ended t.msg).length := by unfold ended; split <;> simp
      have h3 : 0 < (textLines t.msg).length := List.length_pos_iff.2 hlines
      rw [hb] at h1
      omega

/-- If the message does not end with a newline, what is written is the tag with one more.
The commit is the same for both. -/
theorem merge_ambiguous (more : Bytes) (g : MadeCommit) (A B : List Extra) (t : MadeTag) (hg : g.extra = A ++ .mergetag t :: B)
    (h : t.Ok) (hm : t.msg ≠ []) :
    MadeCommit.body more { g with extra := A ++ .mergetag { t with msg := ended t.msg } :: B } = g.body more := by
  have hx : textLines (ended t.msg) = textLines t.msg := by
    rw [← unlines_textLines hm, textLines_lines (textLines_noLF _)]
  have hl : (Extra.mergetag { t with msg := ended t.msg }).lines more = (Extra.mergetag t).lines more := by
    rw [mergetag_lines more h, mergetag_lines more (t := { t with msg := ended t.msg }) ⟨h.object, h.typ, h.name, h.tagger⟩]
    dsimp only
    rw [hx]
  unfold MadeCommit.body MadeCommit.lines
  rw [hg]
  simp only [List.flatMap_append, List.flatMap_cons, hl]

/-- Putting tags in: the tag objects are decoded, and a space is put before every line of
their messages. A commit with these merged tags is written as git writes it. -/
theorem merge_in (N : Nat) (hN : 4096 ≤ N) (more : Bytes) (g : MadeCommit) (h : g.Ok) (hf : LinesFit N (g.lines more))
    (out : Bytes) (hout : Framed b!"commit" (g.body more) out) (hlen : (g.body more).length < 2 ^ 63)
    (hr : ReadableSig g.sig) (hord : Reproduced g) (ns : List Tag)
    (hns : Pairs (fun t n => ∃ tagObj, Framed b!"tag" (t.body more) tagObj ∧
      parseObject (σ := Stream) ⟨tagObj, .eof, N⟩ = .ok (.tag n)) g.tags ns) :
    encObj (.commit { g.node more with mergetag := ns.map attach }) = .ok out := by
  have key : ∀ (ts : List MadeTag) (ns : List Tag), (∀ t ∈ ts, t ∈ g.tags) →
      Pairs (fun t n => ∃ tagObj, Framed b!"tag" (t.body more) tagObj ∧
        parseObject (σ := Stream) ⟨tagObj, .eof, N⟩ = .ok (.tag n)) ts ns →
      ns.map attach = ts.map (MadeTag.merged more) := by
    intro ts
    induction ts with
    | nil =>
      intro ns _ hp
      cases ns with
      | nil => rfl
      | cons n ns => exact hp.elim
    | cons t ts ih =>
      intro ns hmem hp
      cases ns with
      | nil => exact hp.elim
      | cons n ns =>
        obtain ⟨⟨tagObj, h1, h2⟩, h3⟩ := hp
        obtain ⟨hok, hfit⟩ := tags_fit hN more h hf (hmem t (by simp))
        rw [(written_tag N hN more t hok hfit tagObj h1).1] at h2
        have h2 := Obj.tag.inj (Res.ok.inj h2)
        rw [List.map_cons, List.map_cons, ih ns (fun t ht => hmem t (by simp [ht])) h3, merged_attach, h2]
  rw [key g.tags ns (fun _ h => h) hns, ← merged_tags]
  exact (((written_commit N hN more g h hf out hout hlen).1 hr).2).2 hord

/-- Nothing is lost by taking the spaces off: for every commit that is decoded, whoever
made it, putting them back gives the merged tag as it was. -/
theorem decoded_merge (s : Stream) (hN : 2 ≤ s.bufsz) (c : Commit) (h : parseObject s = .ok (.commit c)) :
    ∀ mt ∈ c.mergetag, attach (detach mt) = mt := by
  obtain ⟨_, d, z, body, bs, m, _, hrest, hbs, hmeans⟩ := (commit_accepts s hN c).1 h
  have hmsg : ∀ b ms r, MergeMsg s.bufsz b ms r → ∀ l ∈ ms, l.head? = some SP ∧ LF ∉ l := by
    intro b ms r hm
    induction hm with
    | stop => simp
    | more b l r r' ls hl hsp _ ih =>
      intro x hx
      rcases List.mem_cons.1 hx with rfl | hx
      · refine ⟨hsp, ?_⟩
        cases hl <;> assumption
      · exact ih x hx
  have hall : ∀ x ∈ mergeTags bs, ∀ l ∈ x.2.2.getD [], l.head? = some SP ∧ LF ∉ l := by
    clear hmeans h hrest
    induction hbs with
    | done => simp [mergeTags]
    | blank => simp [mergeTags]
    | line b l r bs m _ _ _ _ _ ih => exact ih
    | sig b l r r' ls bs m _ _ _ _ ih => exact ih
    | merge b x r r1 r2 ls msg bs m _ _ hl _ ih =>
      intro y hy
      rw [show mergeTags (.merge x ls (some msg) :: bs) = (x, ls, some msg) :: mergeTags bs from rfl] at hy
      rcases List.mem_cons.1 hy with rfl | hy
      · exact hmsg _ _ _ hl
      · exact ih y hy
    | cut b x r ls _ _ =>
      intro y hy
      rw [show mergeTags [.merge x ls none] = [(x, ls, none)] from rfl, List.mem_singleton] at hy
      subst hy
      simp
  have hp := hmeans.mergetag
  have key : ∀ (xs : List (Bytes × List Bytes × Option (List Bytes))) (ts : List Tag), Pairs MergeMeans xs ts →
      (∀ x ∈ xs, ∀ l ∈ x.2.2.getD [], l.head? = some SP ∧ LF ∉ l) →
      ∀ t ∈ ts, ∃ ls : List Bytes, t.message = unlines ls ∧ ∀ l ∈ ls, l.head? = some SP ∧ LF ∉ l := by
    intro xs
    induction xs with
    | nil =>
      intro ts hp _ t ht
      cases ts with
      | nil => simp at ht
      | cons => exact hp.elim
    | cons x xs ih =>
      intro ts hp hx t ht
      cases ts with
      | nil => simp at ht
      | cons t' ts =>
        rcases List.mem_cons.1 ht with rfl | ht
        · exact ⟨_, hp.1.message, hx x (by simp)⟩
        · exact ih ts hp.2 (fun x h => hx x (by simp [h])) t ht
  intro mt hmt
  obtain ⟨ls, hl, hls⟩ := key _ _ hp hall mt hmt
  have hd : (detach mt).message = unlines (ls.map (·.drop 1)) := by
    unfold detach
    dsimp only
    rw [hl, textLines_lines fun l h => (hls l h).2]
  have hback : (attach (detach mt)).message = mt.message := by
    show unlines ((textLines (detach mt).message).map (SP :: ·)) = _
    rw [hd, textLines_lines, List.map_map, hl]
    · congr 1
      conv => rhs; rw [← List.map_id ls]
      apply List.map_congr_left
      intro l h
      have := (hls l h).1
      cases l with
      | nil => simp at this
      | cons b l => simp at this; simp [this]
    · intro l h
      obtain ⟨x, hx, rfl⟩ := List.mem_map.1 h
      exact fun hc => (hls x hx).2 (List.mem_of_mem_drop hc)
  show Tag.mk mt.object mt.typ mt.tag mt.tagger (attach (detach mt)).message = mt
  rw [hback]

/-! ## Cases -/

example : (madeCommit [] .pgp pgpLines).tags = [madeTag] ∧ madeTag.msg.getLast? = some LF :=
  ⟨rfl, by decide +kernel⟩

/-- The merge of a signed tag, and the tag again. -/
example : encObj (.tag (detach (madeTag.merged marks))) = .ok (withHeader b!"tag" (madeTag.body marks)) := by
  decide +kernel

/-- The tag is decoded, and the merge of it written as git does. -/
example : encObj (.commit { (madeCommit [] .pgp pgpLines).node marks with mergetag := [madeTag.node marks].map attach }) =
    .ok (withHeader b!"commit" ((madeCommit [] .pgp pgpLines).body marks)) := by
  have hfit : LinesFit 4096 (madeTag.lines marks) := by unfold LinesFit; decide +kernel
  refine merge_in 4096 (by omega) marks _ (madeCommit_ok [] (by simp) pgpLines_ok.1 (by decide)) ?_ _
    (framed_withHeader _ _) (by decide +kernel) ⟨rfl, pgpLines_ok.2.1⟩ ⟨[madeTag], [], rfl, fun _ => rfl⟩ _
    ⟨⟨_, framed_withHeader _ _, (written_tag 4096 (by omega) marks madeTag madeTag_ok hfit _ (framed_withHeader _ _)).1⟩,
      trivial⟩
  unfold LinesFit
  decide +kernel

/-- A message without a newline at the end gets one. -/
example : ({ madeTag with msg := b!"One\nTwo" } : MadeTag).msg.getLast? ≠ some LF ∧
    (detach (MadeTag.merged marks { madeTag with msg := b!"One\nTwo" })).message = b!"One\nTwo\n" := by
  decide +kernel

end Verif.Props
