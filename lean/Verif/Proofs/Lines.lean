import Verif.Proofs.Ground

/-!
# The shape of decoded values

Invariants of the loops: every value of a decoded object has the shape the format
requires, with a property `P` that all lines of the stream have.
-/

namespace Verif

open Spec

variable {P : Bytes → Prop}

/-- The person was parsed from a line with property `P`. -/
def PersonLine (P : Bytes → Prop) (p : PersonInfo) : Prop :=
  ∃ v w z, SP ∉ w ∧ P (v ++ z) ∧ parsePersonInfo (w ++ [SP] ++ z) = .ok p

/-- Lines with property `P`, each followed by LF. -/
def LinesWith (P : Bytes → Prop) (m : Bytes) : Prop := ∃ ls, m = unlines ls ∧ ∀ l ∈ ls, P l

structure TagLines (P : Bytes → Prop) (pre : Bytes) (t : Tag) : Prop where
  typ : t.typ = [] ∨ P (pre ++ b!"type " ++ t.typ)
  tag : t.tag = [] ∨ P (pre ++ b!"tag " ++ t.tag)
  tagger : t.tagger = ⟨[], [], [], []⟩ ∨ PersonLine P t.tagger

structure PlainTagLines (P : Bytes → Prop) (t : Tag) : Prop extends TagLines P b!"" t where
  object : t.object = .nil ∨ IsGitLink t.object

structure MergeTagLines (P : Bytes → Prop) (t : Tag) : Prop extends TagLines P b!" " t where
  object : IsGitLink t.object
  message : LinesWith (fun l => l.head? = some SP ∧ P l) t.message

/-- The text of a signature as the decoder collects it. -/
def SigLines (P : Bytes → Prop) (g : Bytes) : Prop :=
  ∃ l ls, g = unlines (l :: ls) ∧ (∀ x ∈ l :: ls, P x) ∧ (∀ x ∈ ls, x ≠ sigEnd) ∧
    (l = b!" " ∨ b!" Version: " <+: l ∨ b!" Comment: " <+: l)

structure CommitLines (P : Bytes → Prop) (c : Commit) : Prop where
  tree : c.tree = .nil ∨ IsGitLink c.tree
  parents : ∀ p ∈ c.parents, IsGitLink p
  author : ∀ p, c.author = some p → PersonLine P p
  committer : ∀ p, c.committer = some p → PersonLine P p
  encoding : ∀ e, c.encoding = some e → P (b!"encoding " ++ e)
  mergetag : ∀ t ∈ c.mergetag, MergeTagLines P t
  signature : ∀ g, c.signature = some g → SigLines P g
  other : ∀ l ∈ c.other, P l ∧ l ≠ [] ∧ ∀ w ∈ knownHeaders, ¬ w <+: l

theorem LinesWith.nil : LinesWith P [] := ⟨[], rfl, by simp⟩

theorem LinesWith.snoc {m l : Bytes} (h : LinesWith P m) (hl : P l) : LinesWith P (m ++ (l ++ [LF])) := by
  obtain ⟨ls, rfl, h⟩ := h
  refine ⟨ls ++ [l], by simp [unlines], ?_⟩
  intro x hx
  rcases List.mem_append.1 hx with hx | hx
  · exact h x hx
  · rw [List.mem_singleton.1 hx]; exact hl

/-- Every line that is read has property `P`. -/
def LinesAre (P : Bytes → Prop) : Prop := ∀ s s' l, Stream.readLine s = .ok (l, s') → P l

theorem head_of_prefix {l : Bytes} (h : hasPrefix l b!" " = true) : l.head? = some SP := by
  obtain ⟨y, rfl⟩ := (hasPrefix_iff _ _).1 h
  rfl

theorem mergeMsgRun_shape (hP : LinesAre P) (m : Bytes) (s : Stream) (hN : 2 ≤ s.bufsz)
    (hm : LinesWith (fun l => l.head? = some SP ∧ P l) m) (r : Bytes × Bytes) (s' : Stream)
    (h : mergeMsgRun m s = .ok (r, s')) :
    LinesWith (fun l => l.head? = some SP ∧ P l) r.1 ∧ P r.2 := by
  induction s using stream_induct generalizing m with
  | h s ih =>
    rw [mergeMsgRun_eq m s hN] at h
    cases hr : Stream.readLine s with
    | err e => rw [hr] at h; simp at h
    | panic => rw [hr] at h; simp at h
    | ok p =>
      obtain ⟨l, s1⟩ := p
      have hl := Stream.readLine_lt s s1 l hN hr
      have hin := hP _ _ _ hr
      rw [hr] at h
      simp only at h
      split at h
      · simp only [Res.ok.injEq, Prod.mk.injEq] at h
        rw [← h.1]; exact ⟨hm, hin⟩
      · rename_i hp
        exact ih s1 hl _ (by rw [hl.bufsz]; exact hN)
          (hm.snoc ⟨head_of_prefix (Decidable.not_not.1 hp), hin⟩) h

theorem mergeTagRun_shape (hP : LinesAre P) (o : Tag) (s : Stream) (hN : 2 ≤ s.bufsz)
    (ho : MergeTagLines P o) (r : Tag × Option Bytes) (s' : Stream)
    (h : mergeTagRun o s = .ok (r, s')) : MergeTagLines P r.1 ∧ ∀ l, r.2 = some l → P l := by
  induction s using stream_induct generalizing o with
  | h s ih =>
    rw [mergeTagRun_eq o s hN] at h
    cases hr : Stream.readLine s with
    | err e =>
      rw [hr] at h
      cases e <;> simp at h
      rw [← h.1]; exact ⟨ho, by simp⟩
    | panic => rw [hr] at h; simp at h
    | ok p =>
      obtain ⟨l, s1⟩ := p
      have hl := Stream.readLine_lt s s1 l hN hr
      have hin := hP _ _ _ hr
      rw [hr] at h
      simp only at h
      have hN1 : 2 ≤ s1.bufsz := by rw [hl.bufsz]; exact hN
      have key := fun o ho h => ih s1 hl o hN1 ho h
      split at h
      · rename_i hp
        obtain ⟨x, hx, h⟩ := Res.bind_eq_ok.1 h
        refine key _ ?_ h
        have := slice_eq hp rfl hx
        exact { ho with typ := Or.inr (by rw [this] at hin; exact hin) }
      split at h
      · rename_i hp
        obtain ⟨x, hx, h⟩ := Res.bind_eq_ok.1 h
        refine key _ ?_ h
        have := slice_eq hp rfl hx
        exact { ho with tag := Or.inr (by rw [this] at hin; exact hin) }
      split at h
      · rename_i hp
        obtain ⟨x, hx, h⟩ := Res.bind_eq_ok.1 h
        obtain ⟨y, hy, h⟩ := Res.bind_eq_ok.1 h
        refine key _ ?_ h
        obtain ⟨z, rfl⟩ := (hasPrefix_iff _ _).1 hp
        have hx' : x = b!"tagger " ++ z := by
          have := sliceFrom_append [SP] (b!"tagger " ++ z) 1 rfl
          have e : [SP] ++ (b!"tagger " ++ z) = b!" tagger " ++ z := rfl
          rw [e, hx] at this
          simpa using this
        subst hx'
        exact { ho with tagger := Or.inr ⟨b!" tagger ", b!"tagger", z, by decide, hin, hy⟩ }
      split at h
      · obtain ⟨⟨⟨m, rest⟩, s2⟩, hm, h⟩ := Res.bind_eq_ok.1 h
        simp only [Res.ok.injEq, Prod.mk.injEq] at h
        have := mergeMsgRun_shape hP [] s1 hN1 LinesWith.nil _ _ hm
        rw [← h.1]
        exact ⟨{ ho with message := this.1 }, fun l hl => by
          simp only [Option.some.injEq] at hl; rw [← hl]; exact this.2⟩
      · exact key _ ho h

theorem readMergeTag_shape (hP : LinesAre P) (sha : Bytes) (s : Stream) (hN : 2 ≤ s.bufsz)
    (r : Tag × Option Bytes) (s' : Stream) (h : readMergeTag sha s = .ok (r, s')) :
    MergeTagLines P r.1 ∧ ∀ l, r.2 = some l → P l := by
  rw [readMergeTag_eq] at h
  obtain ⟨c, hc, h⟩ := Res.bind_eq_ok.1 h
  refine mergeTagRun_shape hP _ s hN ?_ r s' h
  obtain ⟨hlen, rfl⟩ := (shaToCid_eq_ok _ _).1 hc
  exact { typ := Or.inl rfl, tag := Or.inl rfl, tagger := Or.inl rfl,
          object := ⟨sha, hlen, rfl⟩, message := LinesWith.nil }

theorem SigLines.snoc {g l : Bytes} (h : SigLines P g) (hl : P l) (hne : l ≠ sigEnd) :
    SigLines P (g ++ (l ++ [LF])) := by
  obtain ⟨x, ls, rfl, h1, h2, h3⟩ := h
  refine ⟨x, ls ++ [l], by simp [unlines], ?_, ?_, h3⟩
  · intro y hy
    rw [← List.cons_append] at hy
    rcases List.mem_append.1 hy with hy | hy
    · exact h1 y hy
    · rw [List.mem_singleton.1 hy]; exact hl
  · intro y hy
    rcases List.mem_append.1 hy with hy | hy
    · exact h2 y hy
    · rw [List.mem_singleton.1 hy]; exact hne

theorem sigRun_shape (hP : LinesAre P) (m : Bytes) (s : Stream) (hN : 2 ≤ s.bufsz)
    (hm : SigLines P m) (g : Bytes) (s' : Stream)
    (h : sigRun m s = .ok (g, s')) : SigLines P g := by
  induction s using stream_induct generalizing m with
  | h s ih =>
    rw [sigRun_eq m s hN] at h
    cases hr : Stream.readLine s with
    | err e => rw [hr] at h; simp at h
    | panic => rw [hr] at h; simp at h
    | ok p =>
      obtain ⟨l, s1⟩ := p
      have hl := Stream.readLine_lt s s1 l hN hr
      have hin := hP _ _ _ hr
      rw [hr] at h
      simp only at h
      split at h
      · simp only [Res.ok.injEq, Prod.mk.injEq] at h
        rw [← h.1]; exact hm
      · rename_i hne
        exact ih s1 hl _ (by rw [hl.bufsz]; exact hN) (hm.snoc hin hne) h

theorem decodeGpgSig_shape (hP : LinesAre P) (s : Stream) (hN : 2 ≤ s.bufsz)
    (g : Bytes) (s' : Stream) (h : decodeGpgSig s = .ok (g, s')) : SigLines P g := by
  rw [decodeGpgSig_eq] at h
  obtain ⟨⟨l, s1⟩, h1, h⟩ := Res.bind_eq_ok.1 h
  obtain ⟨sg, h2, h⟩ := Res.bind_eq_ok.1 h
  have hlt := Stream.readLine_lt _ _ _ hN h1
  have hin := hP _ _ _ h1
  refine sigRun_shape hP sg s1 (by rw [hlt.bufsz]; exact hN) ?_ g s' h
  split at h2
  · split at h2
    · rename_i hv
      simp only [Res.ok.injEq] at h2
      rw [← h2]
      refine ⟨l, [], by simp [unlines], by simpa using hin, by simp, Or.inr ?_⟩
      rcases (Bool.or_eq_true _ _).mp hv with hv | hv
      · exact Or.inl (List.isPrefixOf_iff_prefix.1 hv)
      · exact Or.inr (List.isPrefixOf_iff_prefix.1 hv)
    · simp at h2
  · rename_i hl
    simp only [ne_eq, Decidable.not_not] at hl
    simp only [Res.ok.injEq] at h2
    rw [← h2]
    exact ⟨l, [], by rw [hl]; rfl, by simpa using hin, by simp, Or.inl hl⟩

theorem ref_lines {sha : Bytes} {cid : Cid}
    (h2 : shaToCid sha = .ok cid) : IsGitLink (.cid cid) := by
  obtain ⟨hlen, rfl⟩ := (shaToCid_eq_ok _ _).1 h2
  exact ⟨sha, hlen, rfl⟩

theorem commitLineRun_shape (hP : LinesAre P) (c : Commit) (line : Bytes) (s : Stream) (hN : 2 ≤ s.bufsz)
    (hl : P line) (hc : CommitLines P c) (r : Commit) (s' : Stream)
    (h : commitLineRun c line s = .ok (r, s')) : CommitLines P r := by
  induction s using stream_induct generalizing c line with
  | h s ih =>
    rw [commitLineRun_eq c line s hN] at h
    split at h
    · obtain ⟨x, h1, h⟩ := Res.bind_eq_ok.1 h
      obtain ⟨y, h2, h⟩ := Res.bind_eq_ok.1 h
      obtain ⟨z, h3, h⟩ := Res.bind_eq_ok.1 h
      simp only [Res.ok.injEq, Prod.mk.injEq] at h
      rw [← h.1]
      exact { hc with tree := Or.inr (ref_lines h3) }
    split at h
    · obtain ⟨x, h1, h⟩ := Res.bind_eq_ok.1 h
      obtain ⟨y, h2, h⟩ := Res.bind_eq_ok.1 h
      obtain ⟨z, h3, h⟩ := Res.bind_eq_ok.1 h
      simp only [Res.ok.injEq, Prod.mk.injEq] at h
      rw [← h.1]
      refine { hc with parents := ?_ }
      intro p hp
      rcases List.mem_append.1 hp with hp | hp
      · exact hc.parents p hp
      · rw [List.mem_singleton.1 hp]; exact ref_lines h3
    split at h
    · rename_i hp
      obtain ⟨z, rfl⟩ := (hasPrefix_iff _ _).1 hp
      obtain ⟨x, h1, h⟩ := Res.bind_eq_ok.1 h
      simp only [Res.ok.injEq, Prod.mk.injEq] at h
      rw [← h.1]
      refine { hc with author := ?_ }
      intro p hp
      simp only [Option.some.injEq] at hp
      rw [← hp]
      exact ⟨b!"author ", b!"author", z, by decide, hl, h1⟩
    split at h
    · rename_i hp
      obtain ⟨z, rfl⟩ := (hasPrefix_iff _ _).1 hp
      obtain ⟨x, h1, h⟩ := Res.bind_eq_ok.1 h
      simp only [Res.ok.injEq, Prod.mk.injEq] at h
      rw [← h.1]
      refine { hc with committer := ?_ }
      intro p hp
      simp only [Option.some.injEq] at hp
      rw [← hp]
      exact ⟨b!"committer ", b!"committer", z, by decide, hl, h1⟩
    split at h
    · rename_i hp
      obtain ⟨x, h1, h⟩ := Res.bind_eq_ok.1 h
      simp only [Res.ok.injEq, Prod.mk.injEq] at h
      rw [slice_eq hp rfl h1] at hl
      rw [← h.1]
      refine { hc with encoding := ?_ }
      intro e he
      simp only [Option.some.injEq] at he
      rw [← he]; exact hl
    split at h
    · obtain ⟨x, h1, h⟩ := Res.bind_eq_ok.1 h
      obtain ⟨y, h2, h⟩ := Res.bind_eq_ok.1 h
      obtain ⟨⟨⟨mt, rest⟩, s1⟩, hm, h⟩ := Res.bind_eq_ok.1 h
      have hsub := readMergeTag_sub _ _ hN _ _ hm
      have hf := readMergeTag_shape hP y s hN _ _ hm
      have hc' : CommitLines P { c with mergetag := c.mergetag ++ [mt] } := by
        refine { hc with mergetag := ?_ }
        intro t ht
        rcases List.mem_append.1 ht with ht | ht
        · exact hc.mergetag t ht
        · rw [List.mem_singleton.1 ht]; exact hf.1
      simp only at h
      cases rest with
      | none =>
        simp only [Res.ok.injEq, Prod.mk.injEq] at h
        rw [← h.1]; exact hc'
      | some l =>
        have hlt := hsub.2 (by simp)
        exact ih s1 hlt _ _ (by rw [hlt.bufsz]; exact hN) (hf.2 l rfl) hc' h
    split at h
    · obtain ⟨⟨sig, s1⟩, hg, h⟩ := Res.bind_eq_ok.1 h
      simp only [Res.ok.injEq, Prod.mk.injEq] at h
      have := decodeGpgSig_shape hP s hN _ _ hg
      rw [← h.1]
      refine { hc with signature := ?_ }
      intro g hg'
      simp only [Option.some.injEq] at hg'
      rw [← hg']
      exact this
    split at h
    · obtain ⟨⟨x, s1⟩, hg, h⟩ := Res.bind_eq_ok.1 h
      simp only [Res.ok.injEq, Prod.mk.injEq] at h
      rw [← h.1]
      exact { hc with }
    · rename_i h1 h2 h3 h4 h5 h6 h7 h8
      simp only [Res.ok.injEq, Prod.mk.injEq] at h
      rw [← h.1]
      refine { hc with other := ?_ }
      intro l' hl'
      rcases List.mem_append.1 hl' with hl' | hl'
      · exact hc.other l' hl'
      · rw [List.mem_singleton.1 hl']
        refine ⟨hl, by rintro rfl; simp at h8, ?_⟩
        intro w hw hpre
        have hpre := List.isPrefixOf_iff_prefix.2 hpre
        simp only [knownHeaders, List.mem_cons, List.not_mem_nil, or_false] at hw
        rcases hw with rfl | rfl | rfl | rfl | rfl | rfl | rfl <;> contradiction

theorem commitRun_shape (hP : LinesAre P) (c r : Commit) (s : Stream) (hN : 2 ≤ s.bufsz)
    (hc : CommitLines P c) (h : commitRun c s = .ok r) : CommitLines P r := by
  induction s using stream_induct generalizing c with
  | h s ih =>
    rw [commitRun_eq c s hN] at h
    cases hr : Stream.readLine s with
    | err e =>
      rw [hr] at h
      cases e <;> simp at h
      rw [← h]; exact hc
    | panic => rw [hr] at h; simp at h
    | ok p =>
      obtain ⟨l, s'⟩ := p
      have hl := Stream.readLine_lt s s' l hN hr
      have hN' : 2 ≤ s'.bufsz := by rw [hl.bufsz]; exact hN
      have hin := hP _ _ _ hr
      rw [hr] at h
      obtain ⟨⟨c', s''⟩, hc', h⟩ := Res.bind_eq_ok.1 h
      have hsub := commitLineRun_sub _ _ _ hN' _ _ hc'
      exact ih s'' (hsub.trans_lt hl) _ (by rw [hsub.bufsz]; exact hN')
        (commitLineRun_shape hP c l s' hN' hin hc _ _ hc') h

/-! ### tags -/

theorem tagLine_shape (t : Tag) (line : Bytes) (s : Stream)
    (hl : P line) (ht : PlainTagLines P t) (r : Tag) (s' : Stream)
    (h : tagLine t line s = .ok (r, s')) : PlainTagLines P r := by
  unfold tagLine at h
  split at h
  · obtain ⟨x, h1, h⟩ := Res.bind_eq_ok.1 h
    obtain ⟨y, h2, h⟩ := Res.bind_eq_ok.1 h
    obtain ⟨z, h3, h⟩ := Res.bind_eq_ok.1 h
    simp only [Res.ok.injEq, Prod.mk.injEq] at h
    rw [← h.1]
    exact { ht with object := Or.inr (ref_lines h3) }
  split at h
  · rename_i hp
    obtain ⟨x, h1, h⟩ := Res.bind_eq_ok.1 h
    simp only [Res.ok.injEq, Prod.mk.injEq] at h
    rw [slice_eq hp rfl h1] at hl
    rw [← h.1]
    exact { ht with tag := Or.inr hl }
  split at h
  · rename_i hp
    obtain ⟨z, rfl⟩ := (hasPrefix_iff _ _).1 hp
    obtain ⟨x, h1, h⟩ := Res.bind_eq_ok.1 h
    simp only [Res.ok.injEq, Prod.mk.injEq] at h
    rw [← h.1]
    exact { ht with tagger := Or.inr ⟨b!"tagger ", b!"tagger", z, by decide, hl, h1⟩ }
  split at h
  · rename_i hp
    obtain ⟨x, h1, h⟩ := Res.bind_eq_ok.1 h
    simp only [Res.ok.injEq, Prod.mk.injEq] at h
    rw [slice_eq hp rfl h1] at hl
    rw [← h.1]
    exact { ht with typ := Or.inr hl }
  split at h
  · obtain ⟨⟨x, s1⟩, hg, h⟩ := Res.bind_eq_ok.1 h
    simp only [Res.ok.injEq, Prod.mk.injEq] at h
    rw [← h.1]
    exact { ht with }
  · simp only [Res.ok.injEq, Prod.mk.injEq] at h
    rw [← h.1]; exact ht

theorem tagRun_shape (hP : LinesAre P) (c r : Tag) (s : Stream) (hN : 2 ≤ s.bufsz)
    (hc : PlainTagLines P c) (h : tagRun c s = .ok r) : PlainTagLines P r := by
  induction s using stream_induct generalizing c with
  | h s ih =>
    rw [tagRun_eq c s hN] at h
    cases hr : Stream.readLine s with
    | err e =>
      rw [hr] at h
      cases e <;> simp at h
      rw [← h]; exact hc
    | panic => rw [hr] at h; simp at h
    | ok p =>
      obtain ⟨l, s'⟩ := p
      have hl := Stream.readLine_lt s s' l hN hr
      have hN' : 2 ≤ s'.bufsz := by rw [hl.bufsz]; exact hN
      have hin := hP _ _ _ hr
      rw [hr] at h
      obtain ⟨⟨c', s''⟩, hc', h⟩ := Res.bind_eq_ok.1 h
      have hsub := tagLine_sub _ _ _ _ _ hc'
      exact ih s'' (hsub.trans_lt hl) _ (by rw [hsub.bufsz]; exact hN')
        (tagLine_shape c l s' hin hc _ _ hc') h

/-- Lines hold no LF. -/
theorem readLine_noLF : LinesAre (LF ∉ ·) := by
  intro s s' l h
  unfold Stream.readLine at h
  split at h
  · simp at h
  · split at h
    · rename_i a b hs
      obtain ⟨h1, h2⟩ := splitAt_some _ _ _ _ hs
      simp only [Res.ok.injEq, Prod.mk.injEq] at h
      rw [← h.1]
      unfold dropCR
      split
      · exact fun hm => h2 ((List.dropLast_sublist _).subset hm)
      · exact h2
    · rename_i hs
      have hs := (splitAt_none _ _).1 hs
      split at h
      · dsimp only at h
        split at h
        · simp only [Res.ok.injEq, Prod.mk.injEq] at h
          rw [← h.1]
          exact fun hm => hs ((List.dropLast_sublist _).subset hm)
        · simp only [Res.ok.injEq, Prod.mk.injEq] at h
          rw [← h.1]
          exact hs
      · rename_i hlen
        simp only [Res.ok.injEq, Prod.mk.injEq] at h
        rw [← h.1]
        rw [List.take_of_length_le (by omega)] at hs
        exact hs

end Verif
