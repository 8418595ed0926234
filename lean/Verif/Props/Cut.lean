import Verif.Proofs.Cut
import Verif.Props.Tree

/-!
# C60 What is left of a commit or tag that stops early

C36 is false: many truncated streams are accepted. Here it is stated exactly, for
every well-formed commit and tag and every point at which its stream can stop,
whether what is left is accepted and as what.
-/

namespace Verif.Props
open Verif Spec

/-- A commit that stops inside one of its header items. -/
theorem commit_cut_item (N : Nat) (hN : 4096 ≤ N) (d : Bytes) (hd : SizeText d) (pre : List Item) (i : Item)
    (post : List Item) (h : ItemsOk N (pre ++ i :: post)) (p q : Bytes) (hp : p ≠ []) (hq : q ≠ [])
    (ht : i.text = p ++ q) (c : Commit) :
    parseObject (σ := Stream) ⟨b!"commit " ++ d ++ NUL :: (itemsText pre ++ p), .eof, N⟩ = .ok (.commit c) ↔
      CommitCut (commitOf pre []) p c := by
  obtain ⟨hi, hsp⟩ := itemsOk_at h
  have hrun := commitRun_items' pre Commit.zero p .eof N hN (itemsOk_left h) (by
    intro hm
    refine startsOk_head N p hp ?_
    have := item_head hi (hsp hm)
    rw [ht] at this
    cases p with
    | nil => exact absurd rfl hp
    | cons b p => simpa using this)
  rw [parse_commit_size hd, hrun, commitOf_nil, ← commitRun_cutItem N hN _ _ i hi p q hp hq ht.symm]
  constructor
  · intro h
    obtain ⟨c1, h1, h2⟩ := Res.bind_eq_ok.1 h
    simp only [Res.ok.injEq, Obj.commit.injEq] at h2
    rw [h1, h2]
  · intro h
    rw [h]; rfl

/-- What is left of a commit that stops anywhere is accepted in exactly three
cases: the stream stops in the message; or after a header item that is not a merge
tag; or inside a header item such that what is left of the item has a meaning. -/
theorem commit_truncation_exact (N : Nat) (hN : 4096 ≤ N) (d : Bytes) (hd : SizeText d) (is : List Item)
    (h : ItemsOk N is) (msg P : Bytes)
    (hP : P <+: b!"commit " ++ d ++ NUL :: itemsBody is msg) (c : Commit) :
    parseObject (σ := Stream) ⟨P, .eof, N⟩ = .ok (.commit c) ↔
      (∃ m, P = b!"commit " ++ d ++ NUL :: itemsBody is m ∧ c = commitOf is m) ∨
      (∃ pre post, is = pre ++ post ∧ P = b!"commit " ++ d ++ NUL :: itemsText pre ∧
        (∀ x t, pre.getLast? ≠ some (.mergetag x t)) ∧ c = commitOf pre []) ∨
      (∃ pre i post p q, is = pre ++ i :: post ∧ i.text = p ++ q ∧ p ≠ [] ∧ q ≠ [] ∧
        P = b!"commit " ++ d ++ NUL :: (itemsText pre ++ p) ∧ CommitCut (commitOf pre []) p c) := by
  constructor
  · intro hpar
    obtain ⟨q, hq⟩ := hP
    have hnul : NUL ∉ b!"commit " ++ d := by
      obtain ⟨z, hz, _⟩ := hd
      simp only [List.mem_append, not_or]; exact ⟨by decide, signed_nul hz⟩
    rcases cut_at NUL hnul hq with ⟨hp, _⟩ | ⟨B, rfl, hB⟩
    · obtain ⟨e, he⟩ := tree_truncated_header P N hp
      rw [he] at hpar; simp at hpar
    · rcases items_cut is msg B ⟨q, hB⟩ with ⟨m, rfl⟩ | ⟨pre, post, rfl, rfl⟩ |
        ⟨pre, i, post, p, r, rfl, h1, h2, h3, rfl⟩
      · rw [show itemsText is ++ LF :: m = itemsBody is m from rfl, parse_items hd N hN is h m] at hpar
        simp only [Res.ok.injEq, Obj.commit.injEq] at hpar
        exact Or.inl ⟨m, rfl, hpar.symm⟩
      · have hpre := itemsOk_left h
        have hmt : ∀ x t, pre.getLast? ≠ some (.mergetag x t) := by
          intro x t hl
          obtain ⟨pre', rfl⟩ : ∃ pre', pre = pre' ++ [.mergetag x t] := List.getLast?_eq_some_iff.1 hl
          rw [List.append_assoc] at h
          obtain ⟨⟨hx, ht⟩, _⟩ := itemsOk_at (i := .mergetag x t) h
          obtain ⟨ms, hm, hms⟩ := ht.message
          have := commit_truncated_mergetag N hN d hd pre' (itemsOk_left h) x t hx ht ms [] hm
            (fun l hl => ⟨(hms l hl).2, (hms l hl).1⟩) (Or.inl rfl)
          rw [show itemsText (pre' ++ [.mergetag x t]) = itemsText pre' ++ mergeTagBlock x t ++ [] by
            simp [itemsText, Item.text], this] at hpar
          simp at hpar
        rw [commit_truncation_headers_accepted N hN d hd pre hpre hmt] at hpar
        simp only [Res.ok.injEq, Obj.commit.injEq] at hpar
        exact Or.inr (Or.inl ⟨pre, post, rfl, rfl, hmt, hpar.symm⟩)
      · exact Or.inr (Or.inr ⟨pre, i, post, p, r, rfl, h1, h2, h3, rfl,
          (commit_cut_item N hN d hd pre i post h p r h2 h3 h1 c).1 hpar⟩)
  · rintro (⟨m, rfl, rfl⟩ | ⟨pre, post, rfl, rfl, hmt, rfl⟩ | ⟨pre, i, post, p, q, rfl, h1, h2, h3, rfl, hc⟩)
    · exact parse_items hd N hN is h m
    · exact commit_truncation_headers_accepted N hN d hd pre (itemsOk_left h) hmt
    · exact (commit_cut_item N hN d hd pre i post h p q h2 h3 h1 c).2 hc

/-- The three cases occur: in the message, after the third-last item, and inside
the sixth item, where `x` is left of the line `x y`. -/
example (P : Bytes) (d : Bytes) :
    (P = b!"commit " ++ d ++ NUL :: itemsBody sampleItems b!"m" → P <+: b!"commit " ++ d ++ NUL :: itemsBody sampleItems b!"msg") ∧
    (P = b!"commit " ++ d ++ NUL :: itemsText (sampleItems.take 7) →
      P <+: b!"commit " ++ d ++ NUL :: itemsBody sampleItems b!"msg" ∧
      ∀ x t, (sampleItems.take 7).getLast? ≠ some (.mergetag x t)) ∧
    (P = b!"commit " ++ d ++ NUL :: (itemsText (sampleItems.take 5) ++ b!"x") →
      P <+: b!"commit " ++ d ++ NUL :: itemsBody sampleItems b!"msg" ∧
      CommitCut (commitOf (sampleItems.take 5) []) b!"x"
        { commitOf (sampleItems.take 5) [] with other := [b!"x"] }) := by
  refine ⟨?_, ?_, ?_⟩
  · rintro rfl
    exact ⟨b!"sg", by simp [itemsBody]⟩
  · rintro rfl
    refine ⟨⟨itemsText (sampleItems.drop 7) ++ LF :: b!"msg", by simp [itemsBody, itemsText, sampleItems]⟩, ?_⟩
    intro x t; simp [sampleItems]
  · rintro rfl
    exact ⟨⟨b!" y\n" ++ itemsText (sampleItems.drop 6) ++ LF :: b!"msg",
      by simp [itemsBody, itemsText, sampleItems, Item.text, unlines]⟩,
      .line _ (by decide) (.other _ (by decide))⟩

/-- Whatever is left is rejected when the stream stops inside a reference. -/
theorem commit_cut_reference (c c' : Commit) (w x y sha : Bytes) (h : Ref (x ++ y) sha) (hy : y ≠ [])
    (hw : w ∈ [b!"tree ", b!"parent ", b!"mergetag object "]) : ¬ CommitCut c (w ++ x) c' := by
  have hx : ∀ l, ¬ RefLink x l := by
    rintro l ⟨s, ⟨h1, h2⟩, _⟩
    have h3 := hexOf_length h1
    have h4 := hexOf_length h.1
    have h5 : 0 < y.length := List.length_pos_iff.2 hy
    have := h.2
    simp only [List.length_append] at h4
    omega
  have hlf : LF ∉ w ++ x := by
    have hr := headerLine_ref 4096 w (x ++ y) sha ?_ h ?_
    · intro hm
      refine hr.noLF ?_
      rw [← List.append_assoc]
      exact List.mem_append_left _ hm
    · simp only [List.mem_cons, List.not_mem_nil, or_false] at hw
      rcases hw with rfl | rfl | rfl <;> decide
    · simp only [List.mem_cons, List.not_mem_nil, or_false] at hw
      rcases hw with rfl | rfl | rfl <;> simp
  rw [commitCut_noLF hlf]
  simp only [List.mem_cons, List.not_mem_nil, or_false] at hw
  rcases hw with rfl | rfl | rfl
  · intro hc
    have := (lineStep_iff c c' _ (prefix_excl ⟨x, rfl⟩ (by decide) (by decide))
      (prefix_excl (p := b!"tree ") ⟨x, rfl⟩ (by decide) (by decide))).2 hc
    unfold LineStep at this
    rw [if_pos ⟨x, rfl⟩] at this
    obtain ⟨l, hl, _⟩ := this
    exact hx l (by simpa using hl)
  · intro hc
    have hp : b!"parent " <+: b!"parent " ++ x := ⟨x, rfl⟩
    have := (lineStep_iff c c' _ (prefix_excl hp (by decide) (by decide))
      (prefix_excl hp (by decide) (by decide))).2 hc
    unfold LineStep at this
    rw [if_neg (prefix_excl hp (by decide) (by decide)), if_pos hp] at this
    obtain ⟨l, hl, _⟩ := this
    exact hx l (by simpa using hl)
  · intro hc
    obtain ⟨l, hl, _⟩ := lineCut_merge.1 hc
    exact hx l hl

example : Ref (b!"0123456789" ++ b!"012345678901234567890123456789") ([1, 0x23, 0x45, 0x67, 0x89, 1, 0x23, 0x45, 0x67,
    0x89, 1, 0x23, 0x45, 0x67, 0x89, 1, 0x23, 0x45, 0x67, 0x89]) :=
  ⟨(hexDecode_iff _ _).1 (by decide), by decide⟩

/-- A stream that stops inside the encoding is accepted, with a shorter encoding. -/
theorem commit_cut_encoding (c : Commit) (x : Bytes) (hx : LF ∉ x) :
    CommitCut c (b!"encoding " ++ x) { c with encoding := some x } :=
  .line _ (by simp only [List.mem_append, not_or]; exact ⟨by decide, hx⟩) (.encoding x)

example : LF ∉ b!"ISO-88" := by decide

/-- What is left of a tag that stops anywhere is accepted exactly if the stream
stops in the message, or if the last header line, cut as it is, has a meaning. -/
theorem tag_truncation_exact (N : Nat) (hN : 4096 ≤ N) (d : Bytes) (hd0 : NUL ∉ d)
    (is : List TagItem) (h : ∀ i ∈ is, i.Ok N) (msg P : Bytes)
    (hP : P <+: b!"tag " ++ d ++ NUL :: (tagItemsText is ++ LF :: msg)) (t : Tag) :
    parseObject (σ := Stream) ⟨P, .eof, N⟩ = .ok (.tag t) ↔
      (∃ m, P = b!"tag " ++ d ++ NUL :: (tagItemsText is ++ LF :: m) ∧ t = tagOf is m) ∨
      (∃ pre post p, is = pre ++ post ∧ (p = [] ∨ ∃ i, post.head? = some i ∧ p <+: i.line) ∧
        P = b!"tag " ++ d ++ NUL :: (tagItemsText pre ++ p) ∧ TagCut (tagOf pre []) p t) := by
  have hN2 : 2 ≤ N := by omega
  have hl : ∀ i ∈ is, HeaderLine N i.line := fun i hi => tagItem_line hN (h i hi)
  have hcut : ∀ pre post p, is = pre ++ post → (p = [] ∨ ∃ i, post.head? = some i ∧ p <+: i.line) →
      (parseObject (σ := Stream) ⟨b!"tag " ++ d ++ NUL :: (tagItemsText pre ++ p), .eof, N⟩ = .ok (.tag t) ↔
        TagCut (tagOf pre []) p t) := by
    intro pre post p his hp
    have hnl : LF ∉ p ∧ p.length < N := by
      rcases hp with rfl | ⟨i, hi, hpi⟩
      · exact ⟨by simp, by simp; omega⟩
      · have := hl i (by rw [his]; exact List.mem_append_right _ (List.mem_of_mem_head? hi))
        exact ⟨fun hm => this.noLF (hpi.subset hm), cut_short this hpi⟩
    have hz : pre.foldl TagItem.apply Tag.zero = tagOf pre [] := by
      have hmsg : ∀ (is : List TagItem) (c : Tag), (is.foldl TagItem.apply c).message = c.message := by
        intro is
        induction is with
        | nil => intro c; rfl
        | cons i is ih => intro c; rw [List.foldl_cons, ih]; cases i <;> rfl
      have := hmsg pre noTag
      unfold tagOf
      rw [show (Tag.zero) = noTag from rfl]
      cases hf : pre.foldl TagItem.apply noTag
      rw [hf] at this
      simp only [noTag] at this
      rw [this]
    rw [parse_tag_nul _ _ _ _ hd0, tagRun_items pre _ _ _ N hN
      (fun i hi => h i (by rw [his]; exact List.mem_append_left _ hi)), hz,
      ← tagRun_cut N hN2 _ _ p hnl.1 hnl.2]
    constructor
    · intro h
      obtain ⟨c1, h1, h2⟩ := Res.bind_eq_ok.1 h
      simp only [Res.ok.injEq, Obj.tag.injEq] at h2
      rw [h1, h2]
    · intro h
      rw [h]; rfl
  constructor
  · intro hpar
    obtain ⟨q, hq⟩ := hP
    have hnul : NUL ∉ b!"tag " ++ d := by
      simp only [List.mem_append, not_or]; exact ⟨by decide, hd0⟩
    rcases cut_at NUL hnul hq with ⟨hp, _⟩ | ⟨B, rfl, hB⟩
    · obtain ⟨e, he⟩ := tree_truncated_header P N hp
      rw [he] at hpar; simp at hpar
    · rcases tagItems_cut N is hl msg B ⟨q, hB⟩ with ⟨m, rfl⟩ | ⟨pre, post, p, his, hp, rfl⟩
      · rw [tag_truncation_accepted N hN is h d m hd0] at hpar
        simp only [Res.ok.injEq, Obj.tag.injEq] at hpar
        exact Or.inl ⟨m, rfl, hpar.symm⟩
      · exact Or.inr ⟨pre, post, p, his, hp, rfl, (hcut pre post p his hp).1 hpar⟩
  · rintro (⟨m, rfl, rfl⟩ | ⟨pre, post, p, his, hp, rfl, hc⟩)
    · exact tag_truncation_accepted N hN is h d m hd0
    · exact (hcut pre post p his hp).2 hc

example : (∀ i ∈ [TagItem.typ b!"commit", .tag b!"v1"], i.Ok 4096) ∧
    b!"tag 9\x00type commit\ntag v" <+: b!"tag 9\x00" ++ (tagItemsText [.typ b!"commit", .tag b!"v1"] ++ LF :: b!"m") ∧
    TagCut (tagOf [.typ b!"commit"] []) b!"tag v" { tagOf [.typ b!"commit"] [] with tag := b!"v" } := by
  refine ⟨?_, by decide, .tag b!"v"⟩
  intro i hi
  simp only [List.mem_cons, List.not_mem_nil, or_false] at hi
  rcases hi with rfl | rfl <;> exact headerLine_mk (by decide) (by omega)

end Verif.Props
