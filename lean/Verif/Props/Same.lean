import Verif.Spec.Same
import Verif.Props.Verify
import Verif.Props.Wide

/-!
# C112 Which inputs are shown as the same object
-/

namespace Verif.Props

open Verif Spec

theorem parse_tree_field {d : Bytes} {z : Int} (hd : SizeField d z) (body : Bytes) (e : Err) (N : Nat) :
    parseObject (σ := Stream) ⟨b!"tree " ++ d ++ NUL :: body, e, N⟩ =
      treeRun { m := [], t := [] } ⟨body, e, N⟩ >>= fun t => .ok (.tree t) := by
  have : b!"tree " ++ d ++ NUL :: body = b!"tree" ++ SP :: (d ++ NUL :: body) := by simp
  rw [this, parse_tree, decodeTree_eq, (readNum_iff _ ⟨body, e, N⟩ _).2 ⟨d, hd, rfl, rfl⟩]
  rfl

/-- The size of trees, commits and tags does not matter. -/
theorem size_unshown {kind d d' : Bytes} (hd : SizeFor kind d) (hd' : SizeFor kind d') (body : Bytes) (e : Err) (N : Nat) :
    parseObject (σ := Stream) ⟨kind ++ SP :: (d ++ NUL :: body), e, N⟩ =
      parseObject (σ := Stream) ⟨kind ++ SP :: (d' ++ NUL :: body), e, N⟩ := by
  have text : ∀ k x : Bytes, k ++ SP :: (x ++ NUL :: body) = (k ++ b!" ") ++ x ++ NUL :: body := by simp
  rw [text, text]
  rcases hd with ⟨hk, z, hz⟩ | ⟨rfl, hz⟩
  · rcases hd' with ⟨_, z', hz'⟩ | ⟨rfl, _⟩
    · simp only [List.mem_cons, List.not_mem_nil, or_false] at hk
      rcases hk with rfl | rfl
      · exact (parse_tree_field hz body e N).trans (parse_tree_field hz' body e N).symm
      · exact (parse_commit_size ⟨z, hz.2⟩ body e N).trans (parse_commit_size ⟨z', hz'.2⟩ body e N).symm
    · exact absurd hk (by decide)
  · rcases hd' with ⟨hk, _⟩ | ⟨_, hz'⟩
    · exact absurd hk (by decide)
    · exact (parse_tag_nul d body e N hz).trans (parse_tag_nul d' body e N hz').symm

/-- Two streams are read as the same blob exactly if they have the same content under the
same number. -/
theorem same_blob (b b' : Bytes) (e e' : Err) (N N' : Nat) :
    (∃ x, parseObject (σ := Stream) ⟨b, e, N⟩ = .ok (.blob x) ∧ parseObject (σ := Stream) ⟨b', e', N'⟩ = .ok (.blob x)) ↔
      ∃ d d' content rest rest', SizeField d content.length ∧ SizeField d' content.length ∧
        b = b!"blob " ++ d ++ NUL :: (content ++ rest) ∧ b' = b!"blob " ++ d' ++ NUL :: (content ++ rest') := by
  constructor
  · rintro ⟨x, h1, h2⟩
    obtain ⟨d, content, rest, h3, h4, h5⟩ := (blob_accepts _ _).1 h1
    obtain ⟨d', content', rest', h3', h4', h5'⟩ := (blob_accepts _ _).1 h2
    have : content = content' := withHeader_inj ((framed_eq h5).symm.trans (framed_eq h5'))
    subst this
    exact ⟨d, d', content, rest, rest', h3, h3', h4, h4'⟩
  · rintro ⟨d, d', content, rest, rest', h3, h3', rfl, rfl⟩
    exact ⟨withHeader b!"blob" content, (blob_accepts _ _).2 ⟨d, content, rest, h3, rfl, framed_withHeader _ _⟩,
      (blob_accepts _ _).2 ⟨d', content, rest', h3', rfl, framed_withHeader _ _⟩⟩

/-- Two streams are read as the same tree exactly if they have the same whole entries. -/
theorem same_tree (b b' : Bytes) (N N' : Nat) :
    (∃ t t', parseObject (σ := Stream) ⟨b, .eof, N⟩ = .ok (.tree t) ∧
        parseObject (σ := Stream) ⟨b', .eof, N'⟩ = .ok (.tree t') ∧ t.t = t'.t) ↔
      ∃ es d z tail d' z' tail', SizeField d z ∧ SizeField d' z' ∧ TreeTail tail ∧ TreeTail tail' ∧ EntriesOk es ∧
        b = b!"tree " ++ d ++ NUL :: (treeBody es ++ tail) ∧ b' = b!"tree " ++ d' ++ NUL :: (treeBody es ++ tail') := by
  constructor
  · rintro ⟨t, t', h1, h2, h3⟩
    obtain ⟨_, d, z, es, tail, a1, a2, a3, a4, a5⟩ := (tree_accepts _ _).1 ⟨t, h1, rfl⟩
    obtain ⟨_, d', z', es', tail', b1, b2, b3, b4, b5⟩ := (tree_accepts _ _).1 ⟨t', h2, rfl⟩
    have : es = es' := (List.map_inj_right (fun _ _ => row_inj)).1 (by rw [← a5, ← b5, h3])
    subst this
    exact ⟨es, d, z, tail, d', z', tail', a1, b1, a4, b4, a3, a2, b2⟩
  · rintro ⟨es, d, z, tail, d', z', tail', a1, b1, a4, b4, a3, a2, b2⟩
    obtain ⟨t, h1, h2⟩ := (tree_accepts ⟨b, .eof, N⟩ (es.map Entry.row)).2 ⟨rfl, d, z, es, tail, a1, a2, a3, a4, rfl⟩
    obtain ⟨t', h1', h2'⟩ := (tree_accepts ⟨b', .eof, N'⟩ (es.map Entry.row)).2 ⟨rfl, d', z', es, tail', b1, b2, a3, b4, rfl⟩
    exact ⟨t, t', h1, h1', by rw [h2, h2']⟩

theorem zeros_value (n : Nat) : value (List.replicate n 48) = 0 := by
  induction n with
  | zero => rfl
  | succ n ih => rw [List.replicate_succ, value, ih]; simp

theorem zeros_size (n : Nat) : SizeField (List.replicate (n + 1) 48) 0 := by
  have hd : ∀ c ∈ List.replicate (n + 1) (48 : UInt8), Digit c := by
    intro c hc
    rw [(List.mem_replicate.1 hc).2]
    unfold Digit; decide
  refine ⟨?_, ⟨_, by simp, hd, .inl ⟨rfl, by rw [zeros_value]; rfl⟩⟩, by decide, by decide⟩
  intro h
  exact absurd (List.mem_replicate.1 h).2 (by decide)

/-- Whatever is read, there are inputs of any length that are read as the same. -/
theorem many_inputs (s : Stream) (hN : 2 ≤ s.bufsz) (o : Obj) (h : parseObject s = .ok o) (n : Nat) :
    ∃ b, n ≤ b.length ∧ parseObject (σ := Stream) ⟨b, .eof, s.bufsz⟩ = .ok o := by
  cases o with
  | blob x =>
    obtain ⟨d, content, rest, h3, h4, h5⟩ := (blob_accepts _ _).1 h
    exact ⟨b!"blob " ++ d ++ NUL :: (content ++ List.replicate n 0), by simp; omega,
      (blob_accepts _ _).2 ⟨d, content, _, h3, rfl, h5⟩⟩
  | tree t =>
    obtain ⟨he, d, z, es, tail, a1, a2, _⟩ := (tree_accepts _ _).1 ⟨t, h, rfl⟩
    refine ⟨b!"tree " ++ List.replicate (n + 1) 48 ++ NUL :: (treeBody es ++ tail), by simp; omega, ?_⟩
    obtain ⟨_, _, _⟩ := s
    simp only at a2 he
    subst a2 he
    rw [parse_tree_field a1] at h
    rw [parse_tree_field (zeros_size n), h]
  | tag t =>
    obtain ⟨he, d, body, ls, m, a1, a2, _⟩ := (tag_accepts _ hN _).1 h
    refine ⟨b!"tag " ++ List.replicate (n + 1) 48 ++ NUL :: body, by simp; omega, ?_⟩
    obtain ⟨_, _, _⟩ := s
    simp only at a2 he
    subst a2 he
    rw [parse_tag_nul _ _ _ _ a1] at h
    rw [parse_tag_nul _ _ _ _ (zeros_size n).1, h]
  | commit c =>
    obtain ⟨he, d, z, body, bs, m, a1, a2, _⟩ := (commit_accepts _ hN _).1 h
    refine ⟨b!"commit " ++ List.replicate (n + 1) 48 ++ NUL :: body, by simp; omega, ?_⟩
    obtain ⟨_, _, _⟩ := s
    simp only at a2 he
    subst a2 he
    rw [parse_commit_size ⟨z, a1.2⟩] at h
    rw [parse_commit_size ⟨0, (zeros_size n).2⟩, h]

/-! ## What git makes -/

theorem filter_merge_first (xs : List Extra) : (mergesFirst xs).filter Extra.isMerge = xs.filter Extra.isMerge ∧
    ((mergesFirst xs).filter fun x => !x.isMerge) = xs.filter fun x => !x.isMerge := by
  unfold mergesFirst
  simp [List.filter_append, List.filter_filter]

theorem front_text (more : Bytes) {g : MadeCommit} (h : g.Ok) :
    commitBody { g.node more with signature := none, mergetag := [], other := [], message := [] }
      (g.author.person more) (g.committer.person more) = unlines (madeFront more g) ++ [LF] := by
  have h0 : ({ g with extra := [], sig := none, msg := [] } : MadeCommit).Ok :=
    ⟨h.tree, h.parents, h.author, h.committer, h.encoding, by simp, by simp⟩
  have := body_again more _ h0 trivial
  simpa [MadeCommit.node, againLines, sigHeaderLines, madeFront] using this

theorem before_body (more : Bytes) (g : MadeCommit) :
    g.mergesBefore.body more = unlines (madeFront more g) ++
      unlines ((g.extra.filter Extra.isMerge).flatMap (Extra.lines more)) ++
      unlines ((g.extra.filter fun x => !x.isMerge).flatMap (Extra.lines more)) ++ unlines (sigHeaderLines g.sig) ++
      LF :: g.msg := by
  rw [MadeCommit.body, lines_front]
  have : madeFront more g.mergesBefore = madeFront more g := rfl
  rw [this]
  simp [MadeCommit.mergesBefore, mergesFirst, unlines_append]

theorem before_node (more : Bytes) (g : MadeCommit) : g.mergesBefore.node more = g.node more := by
  have h1 : ∀ xs : List Extra, (mergesFirst xs).filterMap (Extra.merged more) = xs.filterMap (Extra.merged more) := by
    intro xs
    have key : ∀ ys : List Extra, (ys.filter Extra.isMerge).filterMap (Extra.merged more) = ys.filterMap (Extra.merged more) ∧
        (ys.filter fun x => !x.isMerge).filterMap (Extra.merged more) = [] := by
      intro ys
      induction ys with
      | nil => exact ⟨rfl, rfl⟩
      | cons y ys ih =>
        cases y with
        | mergetag t =>
          have hm : Extra.merged more (.mergetag t) = some (t.merged more) := rfl
          rw [List.filter_cons_of_pos rfl, List.filterMap_cons_some hm, List.filterMap_cons_some hm, ih.1,
            List.filter_cons_of_neg (by simp [Extra.isMerge]), ih.2]
          exact ⟨rfl, rfl⟩
        | other k v =>
          have hm : Extra.merged more (.other k v) = none := rfl
          rw [List.filter_cons_of_neg (by simp [Extra.isMerge]), List.filterMap_cons_none hm, ih.1,
            List.filter_cons_of_pos rfl, List.filterMap_cons_none hm, ih.2]
          exact ⟨rfl, rfl⟩
    unfold mergesFirst
    rw [List.filterMap_append, (key xs).1, (key xs).2, List.append_nil]
  have h2 : ∀ xs : List Extra, (mergesFirst xs).flatMap Extra.unknown = xs.flatMap Extra.unknown := by
    intro xs
    rw [unknown_lines more, unknown_lines more, (filter_merge_first xs).2]
  simp only [MadeCommit.node, MadeCommit.mergesBefore, h1, h2]

theorem before_ok {g : MadeCommit} (h : g.Ok) : g.mergesBefore.Ok := by
  refine ⟨h.tree, h.parents, h.author, h.committer, h.encoding, ?_, h.sig⟩
  intro x hx
  refine h.extra x ?_
  simp only [MadeCommit.mergesBefore, mergesFirst, List.mem_append, List.mem_filter] at hx
  rcases hx with hx | hx <;> exact hx.1

/-- Two commits that git made are read as the same exactly if they are the same once the
merged tags are moved before the other extra headers. -/
theorem same_commit (N : Nat) (hN : 4096 ≤ N) (more : Bytes) (g g' : MadeCommit) (h : g.Ok) (h' : g'.Ok)
    (hf : LinesFit N (g.lines more)) (hf' : LinesFit N (g'.lines more)) (hr : ReadableSig g.sig) (hr' : ReadableSig g'.sig)
    (out out' : Bytes) (ho : Framed b!"commit" (g.body more) out) (ho' : Framed b!"commit" (g'.body more) out')
    (hl : (g.body more).length < 2 ^ 63) (hl' : (g'.body more).length < 2 ^ 63) :
    parseObject (σ := Stream) ⟨out, .eof, N⟩ = parseObject (σ := Stream) ⟨out', .eof, N⟩ ↔
      g.mergesBefore.body more = g'.mergesBefore.body more := by
  have hp := ((written_commit N hN more g h hf out ho hl).1 hr).1
  have hp' := ((written_commit N hN more g' h' hf' out' ho' hl').1 hr').1
  rw [hp, hp']
  simp only [Res.ok.injEq, Obj.commit.injEq]
  constructor
  · intro he
    have ha : g.author.person more = g'.author.person more := by
      have := congrArg Commit.author he
      simpa [MadeCommit.node] using this
    have hk : g.committer.person more = g'.committer.person more := by
      have := congrArg Commit.committer he
      simpa [MadeCommit.node] using this
    have e1 : unlines (madeFront more g) = unlines (madeFront more g') := by
      have := front_text more h
      rw [he, ha, hk, front_text more h'] at this
      exact (List.append_cancel_right this).symm
    have e2 := congrArg Commit.mergetag he
    have e3 := congrArg Commit.other he
    have e4 := congrArg Commit.signature he
    have e5 := congrArg Commit.message he
    simp only [MadeCommit.node] at e2 e3 e4 e5
    rw [before_body, before_body, e1, ← merged_text more _ h.extra, ← merged_text more _ h'.extra, e2,
      ← unknown_lines, ← unknown_lines, e3, ← sig_lines _ hr, ← sig_lines _ hr', e4, e5]
  · intro he
    have hlen : ∀ g : MadeCommit, (g.mergesBefore.body more).length = (g.body more).length := by
      intro g
      have hs : ∀ xs : List Extra, (unlines (xs.flatMap (Extra.lines more))).length =
          (unlines ((mergesFirst xs).flatMap (Extra.lines more))).length := by
        intro xs
        unfold mergesFirst
        induction xs with
        | nil => rfl
        | cons x xs ih =>
          rw [List.flatMap_cons, unlines_append, List.length_append, ih]
          cases hx : x.isMerge <;>
          · simp [hx, unlines_append]
            try omega
      rw [MadeCommit.body, MadeCommit.body, lines_front, lines_front]
      simp only [unlines_append, List.length_append, MadeCommit.mergesBefore, ← hs]
      rfl
    have hfit : ∀ {g : MadeCommit}, LinesFit N (g.lines more) → LinesFit N (g.mergesBefore.lines more) := by
      intro g hf l hl
      refine hf l ?_
      rw [lines_front] at hl ⊢
      simp only [List.mem_append] at hl ⊢
      rcases hl with (hl | hl) | hl
      · exact .inl (.inl hl)
      · refine .inl (.inr ?_)
        obtain ⟨x, hx, hl⟩ := List.mem_flatMap.1 hl
        refine List.mem_flatMap.2 ⟨x, ?_, hl⟩
        simp only [MadeCommit.mergesBefore, mergesFirst, List.mem_append, List.mem_filter] at hx
        rcases hx with hx | hx <;> exact hx.1
      · exact .inr hl
    have q := ((written_commit N hN more _ (before_ok h) (hfit hf) _ (framed_withHeader _ _) (by rw [hlen]; exact hl)).1 hr).1
    have q' := ((written_commit N hN more _ (before_ok h') (hfit hf') _ (framed_withHeader _ _) (by rw [hlen]; exact hl')).1 hr').1
    rw [he, q', before_node, before_node] at q
    simpa using q.symm

/-- Two tags that git made are read as the same exactly if they are. -/
theorem same_tag (N : Nat) (hN : 4096 ≤ N) (more : Bytes) (t t' : MadeTag) (h : t.Ok) (h' : t'.Ok)
    (hf : LinesFit N (t.lines more)) (hf' : LinesFit N (t'.lines more))
    (out out' : Bytes) (ho : Framed b!"tag" (t.body more) out) (ho' : Framed b!"tag" (t'.body more) out') :
    parseObject (σ := Stream) ⟨out, .eof, N⟩ = parseObject (σ := Stream) ⟨out', .eof, N⟩ ↔ out = out' := by
  constructor
  · intro he
    rw [(written_tag N hN more t h hf out ho).1, (written_tag N hN more t' h' hf' out' ho').1] at he
    simp only [Res.ok.injEq, Obj.tag.injEq, MadeTag.node, Tag.mk.injEq] at he
    obtain ⟨e1, e2, e3, e4, e5⟩ := he
    have e6 : t.object = t'.object := by
      have := congrArg digest e1
      rwa [digest_gitLink, digest_gitLink] at this
    have e7 : t.tagger.text more = t'.tagger.text more := by
      rw [← made_text more h.tagger, ← made_text more h'.tagger, e4]
    rw [framed_eq ho, framed_eq ho', MadeTag.body, MadeTag.body, MadeTag.lines, MadeTag.lines, e2, e3, e5, e6, e7]
  · intro he
    rw [he]

/-! ## Cases that meet the hypotheses -/

namespace SameExample

/-- A merge of a tag with another extra header, before or behind the merged tag. -/
def before : MadeCommit := { madeCommit [] .pgp pgpLines with extra := [hgExtra, .mergetag madeTag] }
def behind : MadeCommit := { madeCommit [] .pgp pgpLines with extra := [.mergetag madeTag, hgExtra] }

theorem made_ok (xs : List Extra) (hx : ∀ x ∈ xs, x = hgExtra ∨ x = .mergetag madeTag) :
    ({ madeCommit [] .pgp pgpLines with extra := xs } : MadeCommit).Ok := by
  obtain ⟨h1, h2, h3, h4, h5, _, h7⟩ := madeCommit_ok [] (by simp) pgpLines_ok.1 (by decide)
  refine ⟨h1, h2, h3, h4, h5, ?_, h7⟩
  intro x h
  rcases hx x h with rfl | rfl
  · exact ⟨by decide, by decide, by decide, by decide⟩
  · exact madeTag_ok

/-- The texts differ, and they are read as the same. -/
example : before.body marks ≠ behind.body marks ∧
    parseObject (σ := Stream) ⟨withHeader b!"commit" (before.body marks), .eof, 4096⟩ =
      parseObject (σ := Stream) ⟨withHeader b!"commit" (behind.body marks), .eof, 4096⟩ := by
  refine ⟨by decide +kernel, (same_commit 4096 (by decide) marks before behind (made_ok _ (by simp)) (made_ok _ (by simp))
    ?_ ?_ ⟨rfl, pgpLines_ok.2.1⟩ ⟨rfl, pgpLines_ok.2.1⟩ _ _ (framed_withHeader _ _) (framed_withHeader _ _)
    (by decide +kernel) (by decide +kernel)).2 rfl⟩ <;>
  · unfold LinesFit
    decide +kernel

/-- A size that is wrong, and one that is none. -/
example : SizeFor b!"commit" (List.replicate 3 48) ∧ SizeFor b!"tag" b!"many" :=
  ⟨.inl ⟨by decide, 0, zeros_size 2⟩, .inr ⟨rfl, by decide⟩⟩

/-- Two streams with the blob `a`. -/
example : ∃ x, parseObject (σ := Stream) ⟨b!"blob 1\x00a", .eof, 16⟩ = .ok (.blob x) ∧
    parseObject (σ := Stream) ⟨b!"blob +01\x00abc", .eof, 16⟩ = .ok (.blob x) :=
  (same_blob _ _ _ _ _ _).2 ⟨b!"1", b!"+01", b!"a", [], b!"bc",
    ⟨by decide, ⟨b!"1", by decide, by simp [Digit], .inl ⟨rfl, by decide⟩⟩, by decide, by decide⟩,
    ⟨by decide, ⟨b!"01", by decide, by simp [Digit], .inr (.inl ⟨rfl, by decide⟩)⟩, by decide, by decide⟩, rfl, rfl⟩

end SameExample

end Verif.Props
