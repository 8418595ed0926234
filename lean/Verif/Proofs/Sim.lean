import Verif.Model.Decode

/-!
# Simulation between readers

If two readers are in a relation that every operation preserves, the decoders
give the same results on them.
-/

namespace Verif

/-- Same data or same error, and the new states are related. -/
def RelRes {σ τ α : Type} (R : σ → τ → Prop) : Res (α × σ) → Res (α × τ) → Prop
  | .ok (a, s), .ok (b, t) => a = b ∧ R s t
  | .err e, .err e' => e = e'
  | .panic, .panic => True
  | _, _ => False

/-- The relation is preserved by every operation. -/
structure ReaderSim {σ τ : Type} [Reader σ] [Reader τ] (R : σ → τ → Prop) : Prop where
  readString : ∀ d s t, R s t → RelRes R (Reader.readString d s) (Reader.readString d t)
  readLine : ∀ s t, R s t → RelRes R (Reader.readLine s) (Reader.readLine t)
  readAll : ∀ s t, R s t → RelRes R (Reader.readAll s) (Reader.readAll t)
  readFull : ∀ n s t, R s t → RelRes R (Reader.readFull n s) (Reader.readFull n t)
  readLimited : ∀ n s t, R s t → RelRes R (Reader.readLimited n s) (Reader.readLimited n t)
  left : ∀ s t, R s t → Reader.left s = Reader.left t

section

variable {σ τ : Type} {R : σ → τ → Prop}

theorem RelRes.bind {α β : Type} {a : Res (α × σ)} {b : Res (α × τ)} {f : α × σ → Res (β × σ)}
    {g : α × τ → Res (β × τ)} (h : RelRes R a b) (hf : ∀ x s t, R s t → RelRes R (f (x, s)) (g (x, t))) :
    RelRes R (a >>= f) (b >>= g) := by
  cases a with
  | ok p =>
    cases b with
    | ok q =>
      obtain ⟨x, s⟩ := p
      obtain ⟨y, t⟩ := q
      obtain ⟨rfl, h⟩ := h
      exact hf x s t h
    | err e => exact h.elim
    | panic => exact h.elim
  | err e => cases b <;> first | exact h | exact h.elim
  | panic => cases b <;> first | exact h | exact h.elim

theorem RelRes.bind_eq {α β : Type} {a : Res (α × σ)} {b : Res (α × τ)} {f : α × σ → Res β}
    {g : α × τ → Res β} (h : RelRes R a b) (hf : ∀ x s t, R s t → f (x, s) = g (x, t)) :
    (a >>= f) = (b >>= g) := by
  cases a with
  | ok p =>
    cases b with
    | ok q =>
      obtain ⟨x, s⟩ := p
      obtain ⟨y, t⟩ := q
      obtain ⟨rfl, h⟩ := h
      exact hf x s t h
    | err e => exact h.elim
    | panic => exact h.elim
  | err e =>
    cases b with
    | err e' => cases h; rfl
    | ok q => exact h.elim
    | panic => exact h.elim
  | panic => cases b <;> first | rfl | exact h.elim

theorem RelRes.pure_bind {α β : Type} {a : Res α} {f : α → Res (β × σ)}
    {g : α → Res (β × τ)} (hf : ∀ x, RelRes R (f x) (g x)) : RelRes R (a >>= f) (a >>= g) := by
  cases a with
  | ok x => exact hf x
  | err e => exact rfl
  | panic => exact True.intro

theorem RelRes.ok {α : Type} (x : α) {s : σ} {t : τ} (h : R s t) : RelRes R (.ok (x, s)) (.ok (x, t)) := ⟨rfl, h⟩

theorem RelRes.err {α : Type} (e : Err) : RelRes (α := α) R (.err e) (.err e) := rfl

/-- Case analysis on two related results. -/
theorem RelRes.cases {α : Type} {a : Res (α × σ)} {b : Res (α × τ)} (h : RelRes R a b) :
    (∃ x s t, a = .ok (x, s) ∧ b = .ok (x, t) ∧ R s t) ∨ (∃ e, a = .err e ∧ b = .err e) ∨
      (a = .panic ∧ b = .panic) := by
  cases a with
  | ok p =>
    cases b with
    | ok q =>
      obtain ⟨x, s⟩ := p
      obtain ⟨y, t⟩ := q
      obtain ⟨rfl, h⟩ := h
      exact .inl ⟨x, s, t, rfl, rfl, h⟩
    | err e => exact h.elim
    | panic => exact h.elim
  | err e =>
    cases b with
    | err e' => cases h; exact .inr (.inl ⟨e, rfl, rfl⟩)
    | ok q => exact h.elim
    | panic => exact h.elim
  | panic => cases b <;> first | exact .inr (.inr ⟨rfl, rfl⟩) | exact h.elim

variable [Reader σ] [Reader τ] (S : ReaderSim (σ := σ) (τ := τ) R)
include S

theorem sim_readNum (s : σ) (t : τ) (h : R s t) : RelRes R (readNum s) (readNum t) :=
  (S.readString _ s t h).bind fun _ _ _ h => RelRes.pure_bind fun _ => RelRes.pure_bind fun _ => .ok _ h

theorem sim_mergeMsgLoop (f : Nat) (m : Bytes) (s : σ) (t : τ) (h : R s t) :
    RelRes R (mergeMsgLoop f m s) (mergeMsgLoop f m t) := by
  induction f generalizing m s t with
  | zero => exact .err _
  | succ f ih =>
    unfold mergeMsgLoop
    rcases (S.readLine s t h).cases with ⟨x, s', t', h1, h2, h3⟩ | ⟨e, h1, h2⟩ | ⟨h1, h2⟩
    · rw [h1, h2]
      simp only
      split
      · exact .ok _ h3
      · exact ih _ _ _ h3
    · rw [h1, h2]; exact rfl
    · rw [h1, h2]; exact True.intro

theorem sim_mergeTagLoop (f : Nat) (o : Tag) (s : σ) (t : τ) (h : R s t) :
    RelRes R (mergeTagLoop f o s) (mergeTagLoop f o t) := by
  induction f generalizing o s t with
  | zero => exact .err _
  | succ f ih =>
    unfold mergeTagLoop
    rcases (S.readLine s t h).cases with ⟨x, s', t', h1, h2, h3⟩ | ⟨e, h1, h2⟩ | ⟨h1, h2⟩
    · rw [h1, h2]
      simp only
      split
      · exact RelRes.pure_bind fun _ => ih _ _ _ h3
      split
      · exact RelRes.pure_bind fun _ => ih _ _ _ h3
      split
      · exact RelRes.pure_bind fun _ => RelRes.pure_bind fun _ => ih _ _ _ h3
      split
      · rw [S.left _ _ h3]
        exact (sim_mergeMsgLoop S _ _ _ _ h3).bind fun _ _ _ h => .ok _ h
      · exact ih _ _ _ h3
    · rw [h1, h2]
      cases e <;> first | exact .ok _ h | exact rfl
    · rw [h1, h2]; exact True.intro

theorem sim_readMergeTag (x : Bytes) (s : σ) (t : τ) (h : R s t) :
    RelRes R (readMergeTag x s) (readMergeTag x t) := by
  unfold readMergeTag
  rw [S.left _ _ h]
  exact RelRes.pure_bind fun _ => sim_mergeTagLoop S _ _ _ _ h

theorem sim_sigLoop (f : Nat) (m : Bytes) (s : σ) (t : τ) (h : R s t) :
    RelRes R (sigLoop f m s) (sigLoop f m t) := by
  induction f generalizing m s t with
  | zero => exact .err _
  | succ f ih =>
    unfold sigLoop
    rcases (S.readLine s t h).cases with ⟨x, s', t', h1, h2, h3⟩ | ⟨e, h1, h2⟩ | ⟨h1, h2⟩
    · rw [h1, h2]
      simp only
      split
      · exact .ok _ h3
      · exact ih _ _ _ h3
    · rw [h1, h2]; exact rfl
    · rw [h1, h2]; exact True.intro

theorem sim_decodeGpgSig (s : σ) (t : τ) (h : R s t) : RelRes R (decodeGpgSig s) (decodeGpgSig t) := by
  unfold decodeGpgSig
  refine (S.readLine s t h).bind fun l s t h => RelRes.pure_bind fun sig => ?_
  rw [S.left _ _ h]
  exact sim_sigLoop S _ _ _ _ h

theorem sim_commitLine (f : Nat) (c : Commit) (l : Bytes) (s : σ) (t : τ) (h : R s t) :
    RelRes R (commitLine f c l s) (commitLine f c l t) := by
  induction f generalizing c l s t with
  | zero => exact .err _
  | succ f ih =>
    unfold commitLine
    split
    · exact RelRes.pure_bind fun _ => RelRes.pure_bind fun _ => RelRes.pure_bind fun _ => .ok _ h
    split
    · exact RelRes.pure_bind fun _ => RelRes.pure_bind fun _ => RelRes.pure_bind fun _ => .ok _ h
    split
    · exact RelRes.pure_bind fun _ => .ok _ h
    split
    · exact RelRes.pure_bind fun _ => .ok _ h
    split
    · exact RelRes.pure_bind fun _ => .ok _ h
    split
    · refine RelRes.pure_bind fun _ => RelRes.pure_bind fun _ => (sim_readMergeTag S _ s t h).bind ?_
      rintro ⟨mt, rest⟩ s t h
      cases rest with
      | none => exact .ok _ h
      | some l => exact ih _ _ _ _ h
    split
    · exact (sim_decodeGpgSig S s t h).bind fun _ _ _ h => .ok _ h
    split
    · exact (S.readAll s t h).bind fun _ _ _ h => .ok _ h
    · exact .ok _ h

theorem sim_commitLoop (f : Nat) (c : Commit) (s : σ) (t : τ) (h : R s t) :
    commitLoop f c s = commitLoop f c t := by
  induction f generalizing c s t with
  | zero => rfl
  | succ f ih =>
    unfold commitLoop
    rcases (S.readLine s t h).cases with ⟨x, s', t', h1, h2, h3⟩ | ⟨e, h1, h2⟩ | ⟨h1, h2⟩
    · rw [h1, h2]
      simp only
      rw [S.left _ _ h3]
      exact (sim_commitLine S _ _ _ _ _ h3).bind_eq fun _ _ _ h => ih _ _ _ h
    · rw [h1, h2]; cases e <;> rfl
    · rw [h1, h2]

theorem sim_decodeCommit (s : σ) (t : τ) (h : R s t) : decodeCommit s = decodeCommit t := by
  unfold decodeCommit
  refine (sim_readNum S s t h).bind_eq fun _ s t h => ?_
  simp only
  rw [S.left _ _ h]
  exact sim_commitLoop S _ _ _ _ h

theorem sim_tagLine (o : Tag) (l : Bytes) (s : σ) (t : τ) (h : R s t) :
    RelRes R (tagLine o l s) (tagLine o l t) := by
  unfold tagLine
  split
  · exact RelRes.pure_bind fun _ => RelRes.pure_bind fun _ => RelRes.pure_bind fun _ => .ok _ h
  split
  · exact RelRes.pure_bind fun _ => .ok _ h
  split
  · exact RelRes.pure_bind fun _ => .ok _ h
  split
  · exact RelRes.pure_bind fun _ => .ok _ h
  split
  · exact (S.readAll s t h).bind fun _ _ _ h => .ok _ h
  · exact .ok _ h

theorem sim_tagLoop (f : Nat) (c : Tag) (s : σ) (t : τ) (h : R s t) : tagLoop f c s = tagLoop f c t := by
  induction f generalizing c s t with
  | zero => rfl
  | succ f ih =>
    unfold tagLoop
    rcases (S.readLine s t h).cases with ⟨x, s', t', h1, h2, h3⟩ | ⟨e, h1, h2⟩ | ⟨h1, h2⟩
    · rw [h1, h2]
      simp only
      exact (sim_tagLine S _ _ _ _ h3).bind_eq fun _ _ _ h => ih _ _ _ h
    · rw [h1, h2]; cases e <;> rfl
    · rw [h1, h2]

theorem sim_decodeTag (s : σ) (t : τ) (h : R s t) : decodeTag s = decodeTag t := by
  unfold decodeTag
  refine (S.readString _ s t h).bind_eq fun _ s t h => ?_
  simp only
  rw [S.left _ _ h]
  exact sim_tagLoop S _ _ _ _ h

theorem sim_decodeTreeEntry (s : σ) (t : τ) (h : R s t) : RelRes R (decodeTreeEntry s) (decodeTreeEntry t) :=
  (S.readString _ s t h).bind fun _ _ _ h => RelRes.pure_bind fun _ =>
    (S.readString _ _ _ h).bind fun _ _ _ h => RelRes.pure_bind fun _ =>
      (S.readFull _ _ _ h).bind fun _ _ _ h => RelRes.pure_bind fun _ => .ok _ h

theorem sim_treeLoop (f : Nat) (c : Tree) (s : σ) (t : τ) (h : R s t) : treeLoop f c s = treeLoop f c t := by
  induction f generalizing c s t with
  | zero => rfl
  | succ f ih =>
    unfold treeLoop
    rcases (sim_decodeTreeEntry S s t h).cases with ⟨⟨n, x⟩, s', t', h1, h2, h3⟩ | ⟨e, h1, h2⟩ | ⟨h1, h2⟩
    · rw [h1, h2]
      simp only
      cases treeAdd c n x with
      | ok c' => exact ih _ _ _ h3
      | err e => rfl
      | panic => rfl
    · rw [h1, h2]; cases e <;> rfl
    · rw [h1, h2]

theorem sim_decodeTree (s : σ) (t : τ) (h : R s t) : decodeTree s = decodeTree t := by
  unfold decodeTree
  refine (sim_readNum S s t h).bind_eq fun _ s t h => ?_
  simp only
  rw [S.left _ _ h]
  exact sim_treeLoop S _ _ _ _ h

theorem sim_decodeBlob (s : σ) (t : τ) (h : R s t) : decodeBlob s = decodeBlob t := by
  unfold decodeBlob
  refine (sim_readNum S s t h).bind_eq fun n s t h => ?_
  simp only
  split
  · rfl
  · exact (S.readLimited _ s t h).bind_eq fun _ _ _ _ => rfl

theorem sim_readType (s : σ) (t : τ) (h : R s t) : RelRes R (readType s) (readType t) := by
  unfold readType
  rcases (S.readString SP s t h).cases with ⟨x, s', t', h1, h2, h3⟩ | ⟨e, h1, h2⟩ | ⟨h1, h2⟩
  · rw [h1, h2]
    exact RelRes.pure_bind fun _ => .ok _ h3
  · rw [h1, h2]; cases e <;> exact rfl
  · rw [h1, h2]; exact True.intro

/-- Related readers give the same object. -/
theorem sim_parseObject (s : σ) (t : τ) (h : R s t) : parseObject s = parseObject t := by
  unfold parseObject
  refine (sim_readType S s t h).bind_eq fun w s t h => ?_
  simp only
  rw [sim_decodeTree S s t h, sim_decodeCommit S s t h, sim_decodeBlob S s t h, sim_decodeTag S s t h]

/-- And hand the same object to the assembler. -/
theorem sim_decode {β : Type} (na : Sink β) (s : σ) (t : τ) (h : R s t) : decode na s = decode na t := by
  unfold decode
  refine (sim_readType S s t h).bind_eq fun w s t h => ?_
  simp only
  rw [sim_decodeTree S s t h, sim_decodeCommit S s t h, sim_decodeBlob S s t h, sim_decodeTag S s t h]

end

end Verif
