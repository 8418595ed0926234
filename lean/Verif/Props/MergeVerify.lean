import Verif.Spec.MergeVerify
import Verif.Props.Merge
import Verif.Props.Verify
import Verif.Props.Multi

/-!
# Whether the signatures of merged tags still verify
-/

namespace Verif.Props

open Verif Spec

/-- A line and lines that continue it. -/
def IsField (f : List Bytes) : Prop :=
  ∃ l cs, f = l :: cs ∧ ¬ Cont l ∧ ∀ c ∈ cs, Cont c

theorem fields_flatten (fs : List (List Bytes)) (h : ∀ f ∈ fs, IsField f) : gitFields fs.flatten = fs := by
  induction fs with
  | nil => rfl
  | cons f fs ih =>
    obtain ⟨l, cs, rfl, _, hc⟩ := h f (by simp)
    have ih := ih fun f hf => h f (by simp [hf])
    rw [List.flatten_cons, List.cons_append, gitFields_field l cs _ hc, ih]
    intro n hn
    cases fs with
    | nil => simp at hn
    | cons f' fs =>
      obtain ⟨l', cs', rfl, hl', _⟩ := h f' (by simp)
      simp only [List.flatten_cons, List.cons_append, List.head?_cons, Option.some.injEq] at hn
      subst hn
      exact hl'

/-- What is known of the headers besides the merged tags. -/
def PlainField (f : List Bytes) : Prop := IsField f ∧ (∀ l ∈ f, l ≠ [] ∧ LF ∉ l) ∧ mergeField f = false

theorem plain_line {c : UInt8} {w x : Bytes} (hc : c ≠ 109) (hs : c ≠ SP) (hw : LF ∉ c :: w) (hx : LF ∉ x) :
    PlainField [c :: w ++ x] := by
  refine ⟨⟨_, [], rfl, ?_, by simp⟩, ?_, ?_⟩
  · simpa [Cont] using hs
  · intro l hl
    rw [List.mem_singleton] at hl
    subst hl
    refine ⟨by simp, ?_⟩
    rw [List.mem_append]
    exact fun h => h.elim hw hx
  · simp [mergeField, Ne.symm hc]

theorem plain_front (more : Bytes) {g : MadeCommit} (h : g.Ok) : ∀ f ∈ (madeFront more g).map ([·]), PlainField f := by
  intro f hf
  obtain ⟨l, hl, rfl⟩ := List.mem_map.1 hf
  simp only [madeFront, List.mem_append, List.mem_singleton, List.mem_map, List.mem_cons, List.not_mem_nil, or_false,
    Option.mem_toList, Option.map_eq_some_iff] at hl
  have hx : ∀ sha : Bytes, sha.length = 20 → LF ∉ hex sha := fun sha hs => by
    have := hexLine_noLF [] sha (by simp) hs
    simpa using this
  rcases hl with ((rfl | ⟨p, hp, rfl⟩) | (rfl | rfl)) | ⟨e, he, rfl⟩
  · exact plain_line (by decide) (by decide) (by decide) (hx _ h.tree)
  · exact plain_line (by decide) (by decide) (by decide) (hx _ (h.parents p hp))
  · exact plain_line (by decide) (by decide) (by decide) (made_noLF more h.author)
  · exact plain_line (by decide) (by decide) (by decide) (made_noLF more h.committer)
  · exact plain_line (by decide) (by decide) (by decide) (h.encoding e he)

/-- The fields of a signature. -/
def sigFields (s : Option (SigFormat × List Bytes)) : List (List Bytes) :=
  match s with
  | none => []
  | some s => [sigHeaderLines (some s)]

theorem sigFields_flatten (s : Option (SigFormat × List Bytes)) : (sigFields s).flatten = sigHeaderLines s := by
  cases s <;> simp [sigFields, sigHeaderLines]

theorem plain_sig {g : MadeCommit} (h : g.Ok) : ∀ f ∈ sigFields g.sig, PlainField f := by
  intro f hf
  cases hs : g.sig with
  | none => rw [hs] at hf; simp [sigFields] at hf
  | some s =>
    obtain ⟨fm, ls⟩ := s
    rw [hs] at hf
    have hf := List.mem_singleton.1 hf
    subst hf
    refine ⟨⟨_, _, rfl, by simp [Cont, SP], ?_⟩, sigLines_clean (h.sig fm ls hs).2, ?_⟩
    · intro c hc
      obtain ⟨x, _, rfl⟩ := List.mem_map.1 hc
      rfl
    · simp [mergeField, sigHeaderLines]

theorem extra_field (more : Bytes) {x : Extra} (h : x.Ok) :
    IsField (x.lines more) ∧ (∀ l ∈ x.lines more, l ≠ [] ∧ LF ∉ l) ∧ mergeField (x.lines more) = x.isMerge := by
  have key : ∀ k v : Bytes, k ≠ [] → SP ∉ k → LF ∉ k → IsField (extraLines k v) ∧
      (∀ l ∈ extraLines k v, l ≠ [] ∧ LF ∉ l) ∧ ∃ x r, extraLines k v = (k ++ x) :: r ∧ (x = [] ∨ ∃ l, x = SP :: l) := by
    intro k v h1 h2 h3
    obtain ⟨x, r, he, hx, hxl, hr⟩ := extraLines_head k v
    refine ⟨⟨_, _, he, ?_, ?_⟩, ?_, ⟨x, r, he, hx⟩⟩
    · cases k with
      | nil => exact absurd rfl h1
      | cons c k =>
        simp only [List.mem_cons, not_or] at h2
        simpa [Cont] using fun h => h2.1 h.symm
    · intro c hc
      obtain ⟨l', rfl, _⟩ := hr c hc
      rfl
    · rw [he]
      intro l hl
      rcases List.mem_cons.1 hl with rfl | hl
      · exact ⟨by simp [h1], by rw [List.mem_append]; exact fun h => h.elim h3 hxl⟩
      · obtain ⟨l', rfl, hl'⟩ := hr l hl
        exact ⟨by simp, fun h => (List.mem_cons.1 h).elim (by decide) hl'⟩
  cases x with
  | mergetag t =>
    obtain ⟨h1, h2, _⟩ := key b!"mergetag" (t.body more) (by decide) (by decide) (by decide)
    refine ⟨h1, h2, ?_⟩
    have hl := mergetag_lines more (t := t) h
    rw [hl]
    simp [mergeField, Extra.isMerge]
  | other k v =>
    obtain ⟨h1, h2, x, r, he, hx⟩ := key k v h.1 h.2.1 h.2.2.1
    refine ⟨h1, h2, ?_⟩
    show mergeField (extraLines k v) = false
    rw [he]
    simp only [mergeField, List.head?_cons, Option.any_some, decide_eq_false_iff_not]
    intro hp
    rcases hx with rfl | ⟨l, rfl⟩
    · rw [List.append_nil] at hp
      obtain ⟨t, ht⟩ := hp
      exact h.2.1 (by rw [← ht]; simp [SP])
    · have := spaceKey_prefix (p := b!"mergetag") (by decide) h.2.1 hp
      exact h.2.2.2 (by rw [← this]; simp)

theorem merge_value (more : Bytes) {t : MadeTag} (h : t.Ok) :
    mergeValue ((Extra.mergetag t).lines more) = ended (t.body more) := by
  have hb : t.body more ≠ [] := by simp [MadeTag.body]
  rw [← unlines_textLines hb]
  show mergeValue (extraLines b!"mergetag" (t.body more)) = _
  unfold extraLines
  rw [textLines_body more h]
  simp [MadeTag.lines, mergeValue, Function.comp_def]

/-- The headers as git reads them of lines that are fields. -/
theorem fields_body (fs : List (List Bytes)) (msg : Bytes) (h : ∀ f ∈ fs, IsField f ∧ ∀ l ∈ f, l ≠ [] ∧ LF ∉ l) :
    headerFields (unlines fs.flatten ++ LF :: msg) = fs := by
  unfold headerFields
  rw [headLines_unlines]
  · exact fields_flatten fs fun f hf => (h f hf).1
  · intro l hl
    obtain ⟨f, hf, hl⟩ := List.mem_flatten.1 hl
    exact (h f hf).2 l hl

theorem flatten_extra (more : Bytes) (xs : List Extra) : (xs.map (Extra.lines more)).flatten = xs.flatMap (Extra.lines more) := by
  rw [List.flatMap_def]

theorem flatten_single (ls : List Bytes) : (ls.map ([·])).flatten = ls := by
  induction ls with
  | nil => rfl
  | cons l ls ih => rw [List.map_cons, List.flatten_cons, ih]; rfl

/-- The headers of the commit as git makes it. -/
theorem made_fields (more : Bytes) (g : MadeCommit) (h : g.Ok) :
    headerFields (g.body more) = (madeFront more g).map ([·]) ++ g.extra.map (Extra.lines more) ++ sigFields g.sig := by
  have e : g.body more = unlines ((madeFront more g).map ([·]) ++ g.extra.map (Extra.lines more) ++ sigFields g.sig).flatten
      ++ LF :: g.msg := by
    rw [List.flatten_append, List.flatten_append, flatten_extra, flatten_single, sigFields_flatten]
    rfl
  rw [e]
  refine fields_body _ _ ?_
  intro f hf
  simp only [List.mem_append] at hf
  rcases hf with (hf | hf) | hf
  · exact ⟨(plain_front more h f hf).1, (plain_front more h f hf).2.1⟩
  · obtain ⟨x, hx, rfl⟩ := List.mem_map.1 hf
    exact ⟨(extra_field more (h.extra x hx)).1, (extra_field more (h.extra x hx)).2.1⟩
  · exact ⟨(plain_sig h f hf).1, (plain_sig h f hf).2.1⟩

/-- The headers of the commit as Encode writes it. -/
theorem again_fields (more : Bytes) (g : MadeCommit) (h : g.Ok) :
    headerFields (unlines (againLines more g) ++ LF :: g.msg) =
      (madeFront more g).map ([·]) ++ (g.extra.filter Extra.isMerge).map (Extra.lines more) ++
        (sigFields g.sig ++ (g.extra.filter fun x => !x.isMerge).map (Extra.lines more)) := by
  have e : againLines more g = ((madeFront more g).map ([·]) ++ (g.extra.filter Extra.isMerge).map (Extra.lines more) ++
        (sigFields g.sig ++ (g.extra.filter fun x => !x.isMerge).map (Extra.lines more))).flatten := by
    rw [List.flatten_append, List.flatten_append, List.flatten_append, flatten_extra, flatten_extra, flatten_single,
      sigFields_flatten]
    rfl
  rw [e]
  refine fields_body _ _ ?_
  intro f hf
  simp only [List.mem_append] at hf
  have hx : ∀ p : Extra → Bool, f ∈ (g.extra.filter p).map (Extra.lines more) → IsField f ∧ ∀ l ∈ f, l ≠ [] ∧ LF ∉ l := by
    intro p hf
    obtain ⟨x, hx, rfl⟩ := List.mem_map.1 hf
    have := extra_field more (h.extra x (List.mem_filter.1 hx).1)
    exact ⟨this.1, this.2.1⟩
  rcases hf with (hf | hf) | (hf | hf)
  · exact ⟨(plain_front more h f hf).1, (plain_front more h f hf).2.1⟩
  · exact hx _ hf
  · exact ⟨(plain_sig h f hf).1, (plain_sig h f hf).2.1⟩
  · exact hx _ hf

theorem filter_plain {fs : List (List Bytes)} (h : ∀ f ∈ fs, PlainField f) : fs.filter mergeField = [] := by
  rw [List.filter_eq_nil_iff]
  intro f hf
  simp [(h f hf).2.2]

theorem filter_extra (more : Bytes) (xs : List Extra) (h : ∀ x ∈ xs, x.Ok) :
    ((xs.map (Extra.lines more)).filter mergeField).map mergeValue = (xs.filterMap Extra.tag?).map fun t => ended (t.body more) := by
  induction xs with
  | nil => rfl
  | cons x xs ih =>
    have ih := ih fun x hx => h x (by simp [hx])
    have hx := h x (by simp)
    have hm := (extra_field more hx).2.2
    cases x with
    | mergetag t =>
      rw [List.map_cons, List.filter_cons_of_pos (by rw [hm]; rfl), List.map_cons, ih, merge_value more hx,
        List.filterMap_cons_some (f := Extra.tag?) (a := .mergetag t) (b := t) rfl, List.map_cons]
    | other k v =>
      rw [List.map_cons, List.filter_cons_of_neg (by rw [hm]; simp [Extra.isMerge]), ih, List.filterMap_cons_none rfl]

theorem tags_filter (xs : List Extra) : (xs.filter Extra.isMerge).filterMap Extra.tag? = xs.filterMap Extra.tag? ∧
    (xs.filter fun x => !x.isMerge).filterMap Extra.tag? = [] := by
  induction xs with
  | nil => exact ⟨rfl, rfl⟩
  | cons x xs ih =>
    cases x with
    | mergetag t =>
      refine ⟨?_, ?_⟩
      · rw [List.filter_cons_of_pos rfl]
        show t :: _ = t :: _
        rw [ih.1]
      · rw [List.filter_cons_of_neg (by simp [Extra.isMerge]), ih.2]
    | other k v =>
      refine ⟨?_, ?_⟩
      · rw [List.filter_cons_of_neg (by simp [Extra.isMerge]), List.filterMap_cons_none rfl, ih.1]
      · rw [List.filter_cons_of_pos rfl, List.filterMap_cons_none rfl, ih.2]

/-- Git finds in the commit that it made the texts of the tags that were merged. -/
theorem made_merges (more : Bytes) (g : MadeCommit) (h : g.Ok) :
    gitMerges (g.body more) = g.tags.map fun t => ended (t.body more) := by
  unfold gitMerges
  rw [made_fields more g h, List.filter_append, List.filter_append, filter_plain (plain_front more h),
    filter_plain (plain_sig h), List.nil_append, List.append_nil, filter_extra more _ h.extra]
  rfl

/-- A commit that git made is decoded and encoded. Git reads the same headers, only their
order may be another, and it finds the same texts of merged tags in the same order: those
of the tags that were merged. So their signatures verify as before, also where the bytes
of the commit have changed. -/
theorem merged_verify (N : Nat) (hN : 4096 ≤ N) (more : Bytes) (g : MadeCommit) (h : g.Ok) (hf : LinesFit N (g.lines more))
    (out : Bytes) (hout : Framed b!"commit" (g.body more) out) (hlen : (g.body more).length < 2 ^ 63)
    (hr : ReadableSig g.sig) :
    ∃ c out' body', parseObject (σ := Stream) ⟨out, .eof, N⟩ = .ok (.commit c) ∧ encObj (.commit c) = .ok out' ∧
      Framed b!"commit" body' out' ∧ (headerFields body').Perm (headerFields (g.body more)) ∧
      gitMerges body' = gitMerges (g.body more) ∧
      gitMerges (g.body more) = g.tags.map fun t => ended (t.body more) := by
  refine ⟨g.node more, _, _, ((written_commit N hN more g h hf out hout hlen).1 hr).1, node_encodes more g h hr,
    framed_withHeader _ _, ?_, ?_, made_merges more g h⟩
  · rw [again_fields more g h, made_fields more g h, List.append_assoc, List.append_assoc]
    refine List.Perm.append_left _ ?_
    have hp : ((g.extra.filter Extra.isMerge).map (Extra.lines more) ++
        (g.extra.filter fun x => !x.isMerge).map (Extra.lines more)).Perm (g.extra.map (Extra.lines more)) := by
      rw [← List.map_append]
      exact (List.filter_append_perm _ _).map _
    have h1 : ((g.extra.filter Extra.isMerge).map (Extra.lines more) ++
        (sigFields g.sig ++ (g.extra.filter fun x => !x.isMerge).map (Extra.lines more))).Perm
        ((g.extra.filter Extra.isMerge).map (Extra.lines more) ++
        ((g.extra.filter fun x => !x.isMerge).map (Extra.lines more) ++ sigFields g.sig)) :=
      List.Perm.append_left _ List.perm_append_comm
    rw [← List.append_assoc _ _ (sigFields g.sig)] at h1
    exact h1.trans (hp.append_right _)
  · rw [made_merges more g h]
    unfold gitMerges
    rw [again_fields more g h, List.filter_append, List.filter_append, List.filter_append, filter_plain (plain_front more h),
      filter_plain (plain_sig h), List.nil_append, List.nil_append, List.map_append,
      filter_extra more _ fun x hx => h.extra x (List.mem_filter.1 hx).1,
      filter_extra more _ fun x hx => h.extra x (List.mem_filter.1 hx).1, (tags_filter g.extra).1, (tags_filter g.extra).2,
      List.map_nil, List.append_nil]
    rfl

/-- The text of a merged tag is the tag itself if its message ends with a newline, so git
finds there the signature that the tag has. -/
theorem merged_signed (more : Bytes) (t : MadeTag) (hl : t.msg.getLast? = some LF) (payload sig : Bytes) :
    GitTagSigned (ended (t.body more)) payload sig ↔ GitTagSigned (t.body more) payload sig := by
  have : ended (t.body more) = t.body more := by
    unfold ended MadeTag.body
    rw [if_pos]
    rw [List.getLast?_append, List.getLast?_cons, hl]
    rfl
  rw [this]

/-! ## Cases -/

/-- A merge with another header before the merged tag: the bytes change, what git finds
does not. -/
def mixedCommit : MadeCommit :=
  { madeCommit [] .pgp pgpLines with extra := [.other b!"HG:extra" b!"a\nb", .mergetag madeTag] }

example : mixedCommit.Ok ∧ LinesFit 4096 (mixedCommit.lines marks) ∧ ReadableSig mixedCommit.sig ∧
    gitMerges (mixedCommit.body marks) = [madeTag.body marks] ∧
    againLines marks mixedCommit ≠ mixedCommit.lines marks := by
  have hk := madeCommit_ok [] (by simp) pgpLines_ok.1 (by decide)
  refine ⟨⟨hk.tree, hk.parents, hk.author, hk.committer, hk.encoding, ?_, hk.sig⟩, ?_, ⟨rfl, pgpLines_ok.2.1⟩, ?_, ?_⟩
  · intro x hx
    simp only [mixedCommit, List.mem_cons, List.not_mem_nil, or_false] at hx
    rcases hx with rfl | rfl
    · exact ⟨by decide, by decide, by decide, by decide⟩
    · exact madeTag_ok
  · unfold LinesFit
    decide +kernel
  · decide +kernel
  · decide +kernel

end Verif.Props
