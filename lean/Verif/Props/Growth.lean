import Verif.Proofs.Growth

/-!
# C95: how much longer an object can get by decoding and encoding
-/

namespace Verif.Props

open Verif Spec

/-- The body that `Encode` writes for a decoded object has at most 84 bytes for
every 59 bytes read, and a constant more. Trees and blobs never get longer. -/
theorem reencode_growth (s : Stream) (hN : 58 ≤ s.bufsz) (o : Obj) (hp : parseObject s = .ok o) (out : Bytes)
    (h : encObj o = .ok out) :
    ∃ body, Framed (typeWord o) body out ∧ 59 * body.length ≤ 84 * s.rest.length + 7874 ∧
      ((∃ t, o = .tree t) ∨ (∃ b, o = .blob b) → body.length < s.rest.length) := by
  cases o with
  | tree t =>
    obtain ⟨d, z, es, tail, hr, -, -, -, he, -⟩ := tree_decoded s t hp
    rw [he] at h
    refine ⟨treeBody es, by rw [← Res.ok.inj h]; exact framed_withHeader _ _, ?_⟩
    have : (treeBody es).length < s.rest.length := by
      rw [hr]; simp only [List.length_append, List.length_cons]; omega
    exact ⟨by omega, fun _ => this⟩
  | blob b =>
    obtain ⟨d, content, rest, hr, -, hf, -⟩ := blob_canonical s b hp
    refine ⟨content, by rw [← Res.ok.inj h]; exact hf, ?_⟩
    have : content.length < s.rest.length := by
      rw [hr]; simp only [List.length_append, List.length_cons]; omega
    exact ⟨by omega, fun _ => this⟩
  | commit c =>
    obtain ⟨body, hf, hb⟩ := encCommit_le c out h
    refine ⟨body, hf, ?_, by rintro (⟨_, h⟩ | ⟨_, h⟩) <;> cases h⟩
    rcases parse_inv_ok s _ hp with ⟨_, _, _, _, _, _, h⟩ | ⟨c', s', hr, _, hb', hd, hc⟩ |
      ⟨_, _, _, _, _, _, h⟩ | ⟨_, _, _, _, _, _, h⟩
    · cases h
    · cases hc
      unfold decodeCommit at hd
      obtain ⟨⟨n, s1⟩, hn, hd⟩ := Res.bind_eq_ok.1 hd
      have hcost := readNum_cost _ _ _ hn
      have hl := commitLoop_funds _ _ s1 (by rw [hcost.2, hb']; exact hN) _ hd
      have hz : commitSize Commit.zero = 142 := rfl
      have hfu : funds s1 ≤ 84 * s1.rest.length + 84 := by unfold funds; split <;> omega
      have hlen : s.rest.length = s'.rest.length + 7 := by
        simpa using congrArg List.length hr
      omega
    · cases h
    · cases h
  | tag t =>
    obtain ⟨body, hf, hb⟩ := encTag_le t out h
    refine ⟨body, hf, ?_, by rintro (⟨_, h⟩ | ⟨_, h⟩) <;> cases h⟩
    rcases parse_inv_ok s _ hp with ⟨_, _, _, _, _, _, h⟩ | ⟨_, _, _, _, _, _, h⟩ |
      ⟨_, _, _, _, _, _, h⟩ | ⟨c', s', hr, _, hb', hd, hc⟩
    · cases h
    · cases h
    · cases h
    · cases hc
      unfold decodeTag at hd
      obtain ⟨⟨n, s1⟩, hn, hd⟩ := Res.bind_eq_ok.1 hd
      have hlt := Stream.readString_lt _ _ _ _ hn
      have hl := tagLoop_funds _ _ s1 (by rw [hlt.bufsz, hb']; exact hN) _ hd
      have hz : tagSize Tag.zero = 72 := rfl
      have hfu : funds s1 ≤ 84 * s1.rest.length + 84 := by unfold funds; split <;> omega
      have hlen : s.rest.length = s'.rest.length + 4 := by
        simpa using congrArg List.length hr
      have := hlt.lt
      omega

/-- The whole file is less than twice as long, and a little more. -/
theorem reencode_double (s : Stream) (hN : 58 ≤ s.bufsz) (o : Obj) (hp : parseObject s = .ok o) (out : Bytes)
    (h : encObj o = .ok out) : out.length ≤ 2 * s.rest.length + 160 := by
  obtain ⟨body, ⟨d, hd, rfl⟩, hb, -⟩ := reencode_growth s hN o hp out h
  have := digits_le d _ hd
  have hw : (typeWord o).length ≤ 6 := by cases o <;> simp [typeWord]
  simp only [List.length_append, List.length_cons]
  omega

/-! ## the factor is sharp -/

/-- A commit of two persons and `d` merge tags. -/
def grown (d : Nat) : Bytes := b!"commit 0\x00author  <>\ncommitter  <>\n" ++ tagsText d

theorem grown_length (d : Nat) : (grown d).length = 59 * d + 35 := by
  have h := tower_length d
  unfold tower at h
  unfold grown
  simp only [List.length_append, List.length_cons, List.length_nil] at h ⊢
  omega

/-- What is read from it. -/
def grownCommit (d : Nat) : Commit :=
  { Commit.zero with author := some ⟨[], [], [], []⟩, committer := some ⟨[], [], [], []⟩, mergetag := List.replicate d tag0 }

theorem grown_accepted (d N : Nat) (hN : 58 ≤ N) :
    parseObject (⟨grown d, .eof, N⟩ : Stream) = .ok (.commit (grownCommit d)) := by
  have ht : readType (⟨grown d, .eof, N⟩ : Stream) =
      .ok (b!"commit", ⟨b!"0" ++ NUL :: (b!"author  <>\ncommitter  <>\n" ++ tagsText d), .eof, N⟩) :=
    readType_word b!"commit" _ .eof N (by decide)
  have hn : readNum (⟨b!"0" ++ NUL :: (b!"author  <>\ncommitter  <>\n" ++ tagsText d), .eof, N⟩ : Stream) =
      .ok (0, ⟨b!"author  <>\ncommitter  <>\n" ++ tagsText d, .eof, N⟩) := by
    unfold readNum
    rw [reader_readString, Stream.readString_delim _ _ _ _ _ (by decide)]
    simp only [Res.bind_ok]
    rw [chop_concat, Res.bind_ok]
    rfl
  have h1 : Stream.readLine ⟨b!"author  <>\ncommitter  <>\n" ++ tagsText d, .eof, N⟩ =
      .ok (b!"author  <>", ⟨b!"committer  <>\n" ++ tagsText d, .eof, N⟩) :=
    Stream.readLine_line (l := b!"author  <>") _ .eof ⟨by decide, by decide, by show 10 < N; omega⟩
  have h2 : Stream.readLine ⟨b!"committer  <>\n" ++ tagsText d, .eof, N⟩ =
      .ok (b!"committer  <>", ⟨tagsText d, .eof, N⟩) :=
    Stream.readLine_line (l := b!"committer  <>") _ .eof ⟨by decide, by decide, by show 13 < N; omega⟩
  have hN2 : 2 ≤ N := by omega
  unfold parseObject
  rw [ht, Res.bind_ok]
  simp only
  rw [if_neg (by decide), if_pos trivial, decodeCommit_eq, hn, Res.bind_ok, commitRun_eq _ _ hN2, h1]
  simp only
  have l1 : commitLineRun Commit.zero b!"author  <>" ⟨b!"committer  <>\n" ++ tagsText d, .eof, N⟩ =
      .ok ({ Commit.zero with author := some ⟨[], [], [], []⟩ }, ⟨b!"committer  <>\n" ++ tagsText d, .eof, N⟩) := by
    rw [commitLineRun_eq _ _ _ hN2]; rfl
  rw [l1, Res.bind_ok]
  simp only
  rw [commitRun_eq _ _ hN2, h2]
  simp only
  have l2 : commitLineRun { Commit.zero with author := some ⟨[], [], [], []⟩ } b!"committer  <>" ⟨tagsText d, .eof, N⟩ =
      .ok ({ Commit.zero with author := some ⟨[], [], [], []⟩, committer := some ⟨[], [], [], []⟩ }, ⟨tagsText d, .eof, N⟩) := by
    rw [commitLineRun_eq _ _ _ hN2]; rfl
  rw [l2, Res.bind_ok]
  simp only
  rw [commitRun_eq _ _ hN2, tagsText_readLine d N .eof hN]
  simp only
  have hd : d < (tagsRest d).length + 1 := by
    have : ∀ d, d ≤ (tagsText d).length := by
      intro d
      induction d with
      | zero => exact Nat.zero_le _
      | succ d ih => simp only [tagsText, List.length_append, List.length_cons]; omega
    cases d with
    | zero => exact Nat.zero_lt_succ _
    | succ d =>
      have := this d
      simp only [tagsRest, List.length_cons]
      omega
  have l3 := tower_ok ((tagsRest d).length + 1) d N
    { Commit.zero with author := some ⟨[], [], [], []⟩, committer := some ⟨[], [], [], []⟩ } hN hd rfl
  unfold commitLineRun
  rw [l3, Res.bind_ok]
  simp only
  rw [commitRun_eq _ _ hN2]
  rfl

theorem grown_encoded (d : Nat) :
    ∃ out body, encObj (.commit (grownCommit d)) = .ok out ∧ Framed b!"commit" body out ∧ body.length = 84 * d + 32 := by
  have hm : ∀ d, ∃ ms, encMergeTags (List.replicate d tag0) = .ok ms ∧ ms.length = 84 * d := by
    intro d
    induction d with
    | zero => exact ⟨[], rfl, rfl⟩
    | succ d ih =>
      obtain ⟨ms, h1, h2⟩ := ih
      have h0 : ∃ x, encMergeTag tag0 = .ok x ∧ x.length = 84 := ⟨_, rfl, by decide +kernel⟩
      obtain ⟨x, h3, h4⟩ := h0
      refine ⟨x ++ ms, ?_, by rw [List.length_append]; omega⟩
      rw [List.replicate_succ, encMergeTags, h3, Res.bind_ok, h1]
      rfl
  obtain ⟨ms, h1, h2⟩ := hm d
  refine ⟨withHeader b!"commit" (b!"tree \nauthor  <>\ncommitter  <>\n" ++ ms ++ [LF]), _, ?_, framed_withHeader _ _, ?_⟩
  · show encCommit _ = _
    unfold encCommit
    have h0 : linkSha (grownCommit d).tree = .ok [] := rfl
    have hp : encParents (grownCommit d).parents = .ok [] := rfl
    have ha : personOrPanic (grownCommit d).author = .ok b!" <>" := rfl
    have hc : personOrPanic (grownCommit d).committer = .ok b!" <>" := rfl
    have hg : encMergeTags (grownCommit d).mergetag = .ok ms := h1
    rw [h0, hp, ha, hc, hg]
    simp [grownCommit, Commit.zero, encOther, hexEncode]
  · simp only [List.length_append, List.length_cons, List.length_nil]; omega

/-- No smaller factor would do, with any constant. -/
theorem growth_sharp (N : Nat) (hN : 58 ≤ N) (a b k : Nat)
    (h : ∀ (x : Bytes) (o : Obj) (out body : Bytes), parseObject (⟨x, .eof, N⟩ : Stream) = .ok o →
      encObj o = .ok out → Framed (typeWord o) body out → b * body.length ≤ a * x.length + k) :
    84 * b ≤ 59 * a := by
  refine Nat.le_of_not_lt fun hlt => ?_
  obtain ⟨out, body, h1, h2, h3⟩ := grown_encoded (35 * a + k + 1)
  have := h _ _ out body (grown_accepted (35 * a + k + 1) N hN) h1 h2
  rw [h3, grown_length] at this
  generalize hd : 35 * a + k + 1 = d at this
  have e1 : b * (84 * d + 32) = (84 * b) * d + 32 * b := by
    rw [Nat.mul_add, ← Nat.mul_assoc, Nat.mul_comm b 84, Nat.mul_comm b 32]
  have e2 : a * (59 * d + 35) = (59 * a) * d + 35 * a := by
    rw [Nat.mul_add, ← Nat.mul_assoc, Nat.mul_comm a 59, Nat.mul_comm a 35]
  have e3 : (59 * a + 1) * d ≤ (84 * b) * d := Nat.mul_le_mul_right d hlt
  rw [Nat.add_mul, Nat.one_mul] at e3
  rw [e1, e2] at this
  omega

/-! ## cases that meet the hypotheses -/

/-- Three merge tags: 212 bytes become 284 and the header. -/
example : ∃ out body, parseObject (⟨grown 3, .eof, 4096⟩ : Stream) = .ok (.commit (grownCommit 3)) ∧
    encObj (.commit (grownCommit 3)) = .ok out ∧ Framed b!"commit" body out ∧
    (grown 3).length = 212 ∧ body.length = 284 := by
  obtain ⟨out, body, h1, h2, h3⟩ := grown_encoded 3
  exact ⟨out, body, grown_accepted 3 4096 (by simp), h1, h2, grown_length 3, h3⟩

/-- A tag that lacks everything. -/
example : parseObject (⟨b!"tag 0\x00", .eof, 4096⟩ : Stream) = .ok (.tag Tag.zero) ∧
    encObj (.tag Tag.zero) = .ok b!"tag 30\x00object \ntype \ntag \ntagger  <>\n" := by
  decide +kernel

end Verif.Props
