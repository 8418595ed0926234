import Verif.Props.Links

/-!
# Encodings: C28, C30
-/

namespace Verif.Props

open Verif Spec

/-! ## C28 Encodings are unambiguous -/

/-- The object fits the git format (with header lines shorter than `N`, which is
as large as one likes) and its size fits a 64-bit number. -/
def WellFormed (N : Nat) : Obj → Prop
  | .blob b => ∃ content, Framed b!"blob" content b ∧ content.length < 2 ^ 63
  | .tree t => ∃ es, EntriesOk es ∧ t.t = es.map Entry.row ∧ (treeBody es).length < 2 ^ 63
  | .commit c => ∃ a k, CommitOk N c a k ∧ (commitBody c a k).length < 2 ^ 63
  | .tag t => TagOk N t

/-- The same object: trees with the same entries in the same order, otherwise
equal. -/
def Same : Obj → Obj → Prop
  | .tree t, .tree t' => t.t = t'.t
  | o, o' => o = o'

theorem same_refl (o : Obj) : Same o o := by cases o <;> simp [Same]

theorem same_trans (a b c : Obj) (h : Same a b) (h' : Same b c) : Same a c := by
  cases a <;> cases b <;> cases c <;> simp_all [Same]

theorem same_symm (a b : Obj) (h : Same a b) : Same b a := by
  cases a <;> cases b <;> simp_all [Same]

/-- Round trips of all four types in one statement. -/
theorem object_roundtrip (N : Nat) (hN : 4096 ≤ N) (o : Obj) (h : WellFormed N o) :
    ∃ out o', encObj o = .ok out ∧ parseObject (σ := Stream) ⟨out, .eof, N⟩ = .ok o' ∧ Same o' o := by
  cases o with
  | blob b =>
    obtain ⟨content, hf, hl⟩ := h
    have := blob_roundtrip content b [] .eof N hl hf
    rw [List.append_nil] at this
    exact ⟨b, _, this.2, this.1, same_refl _⟩
  | tree t =>
    obtain ⟨es, hes, ht, hl⟩ := h
    obtain ⟨out, t', h1, h2, h3⟩ := tree_roundtrip es hes t ht hl N
    exact ⟨out, _, h1, h2, h3⟩
  | commit c =>
    obtain ⟨a, k, hc, hl⟩ := h
    obtain ⟨out, h1, _, h2⟩ := commit_roundtrip N hN c a k hc hl
    exact ⟨out, _, h1, h2, same_refl _⟩
  | tag t =>
    obtain ⟨out, h1, h2⟩ := tag_roundtrip N hN t h
    exact ⟨out, _, h1, h2, same_refl _⟩

/-- Well-formed objects, of whatever types, with the same encoding are the same
object. -/
theorem encode_injective (N : Nat) (hN : 4096 ≤ N) (o o' : Obj) (h : WellFormed N o) (h' : WellFormed N o')
    (he : encObj o = encObj o') : Same o o' := by
  obtain ⟨out, p, h1, h2, h3⟩ := object_roundtrip N hN o h
  obtain ⟨out', p', h1', h2', h3'⟩ := object_roundtrip N hN o' h'
  rw [h1, h1'] at he
  simp only [Res.ok.injEq] at he
  subst he
  rw [h2] at h2'
  simp only [Res.ok.injEq] at h2'
  subst h2'
  exact same_trans _ _ _ (same_symm _ _ h3) h3'

/-- The type can be read off the bytes, for objects well formed or not. -/
theorem encode_type (o o' : Obj) (out : Bytes) (ho : ∀ b, o ≠ .blob b) (ho' : ∀ b, o' ≠ .blob b)
    (h : encObj o = .ok out) (h' : encObj o' = .ok out) : typeWord o = typeWord o' := by
  obtain ⟨d, body, _, he⟩ := encode_size o out ho h
  obtain ⟨d', body', _, he'⟩ := encode_size o' out ho' h'
  rw [he] at he'
  cases o <;> cases o' <;> first | rfl | exact absurd rfl (ho _) | exact absurd rfl (ho' _) | simp [typeWord] at he'

example : WellFormed 4096 (.commit sampleCommit) ∧ WellFormed 4096 (.tag sampleTag) :=
  ⟨⟨_, _, sampleCommit_ok 4096 (by omega), by decide +kernel⟩, sampleTag_ok 4096 (by omega)⟩

/-- Without well-formedness encodings are ambiguous: a newline in a field can
forge a header. -/
theorem encode_ambiguous :
    ∃ t t' : Tag, t ≠ t' ∧ encObj (.tag t) = encObj (.tag t') ∧ (∃ out, encObj (.tag t) = .ok out) :=
  ⟨{ noTag with typ := b!"a\ntag b", tag := b!"c" }, { noTag with typ := b!"a", tag := b!"b\ntag c" },
    by decide, by decide, ⟨_, rfl⟩⟩

/-! ## C30 Re-encoding a decoded object never panics

False as stated: a commit without author or without committer is accepted by the
decoder and makes the encoder dereference a nil pointer. The exact condition: -/

/-- Encoding a decoded object panics if and only if it is a commit without author
or without committer; in every other case it succeeds. -/
theorem reencode_partial (s : Stream) (hN : 2 ≤ s.bufsz) (o : Obj) (h : parseObject s = .ok o) :
    (encObj o = .panic ↔ ∃ c, o = .commit c ∧ (c.author = none ∨ c.committer = none)) ∧
    (encObj o ≠ .panic → ∃ out, encObj o = .ok out) := by
  have hlinks := decoded_from_stream s hN o h
  have ofFrom : ∀ w l, LinkFrom s.rest w l → GitOrNil l := by
    rintro w l (h | ⟨x, sha, hr, rfl, _⟩)
    · exact Or.inr h
    · exact Or.inl ⟨sha, hr.2, rfl⟩
  cases o with
  | blob b => simp [encObj]
  | tree t =>
    obtain ⟨_, _, es, _, _, _, _, _, he, _⟩ := tree_decoded s t h
    simp [he]
  | commit c =>
    have hc : CommitFrom s.rest c := hlinks
    have ht := ofFrom _ _ hc.tree
    have hp : ∀ p ∈ c.parents, IsGitLink p := fun p hp => (hc.parents p hp).1
    have hm : ∀ t ∈ c.mergetag, IsGitLink t.object := fun t ht => (hc.mergetag t ht).object.1
    have hstart : encCommit c = (do
        let au ← personOrPanic c.author
        let co ← personOrPanic c.committer
        (Res.ok (au, co) : Res (Bytes × Bytes)) >>= fun _ => encCommit c) := by
      cases ha : c.author with
      | none =>
        simp only [personOrPanic, Res.bind_panic]
        unfold encCommit
        rw [linkSha_gitOrNil ht, encParents_eq _ hp, ha]
        rfl
      | some a =>
        cases hk : c.committer with
        | none =>
          simp only [personOrPanic, Res.bind_panic, Res.bind_ok]
          unfold encCommit
          rw [linkSha_gitOrNil ht, encParents_eq _ hp, ha, hk]
          rfl
        | some k => rfl
    simp only [encObj, Obj.commit.injEq]
    cases ha : c.author with
    | none => rw [hstart, ha]; simp [personOrPanic, ha]
    | some a =>
      cases hk : c.committer with
      | none => rw [hstart, ha, hk]; simp [personOrPanic, hk]
      | some k =>
        rw [encCommit_text c a k ht hp ha hk hm]
        simp [ha, hk]
  | tag t =>
    have hc : PlainTagFrom s.rest t := hlinks
    have ht := ofFrom _ _ hc.object
    simp only [encObj, encTag, linkSha_gitOrNil ht, Res.bind_ok]
    simp

/-- Counterexample to the full statement: the empty commit. -/
theorem reencode_panics :
    (parseObject (σ := Stream) ⟨b!"commit 0\x00", .eof, 4096⟩ >>= encObj) = .panic := by
  decide

example : (parseObject (σ := Stream) ⟨b!"commit 0\x00author A <a> 1 +0\ncommitter B <b> 1 +0\n\nm", .eof, 4096⟩ >>= encObj) =
    .ok b!"commit 47\x00tree \nauthor A <a> 1 +0\ncommitter B <b> 1 +0\n\nm" := by
  decide

end Verif.Props
