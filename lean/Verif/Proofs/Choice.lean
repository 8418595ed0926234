import Verif.Spec.Delivery
import Verif.Proofs.Bufio

/-!
# Simulation with one choice

A reader `σ` behaves like the abstract stream, except that at one point, where the
stream ends with as many bytes as the buffer has, it may choose to hand them out
whole. Then the decoders give the result of one of the two.
-/

namespace Verif

open Spec

/-- At this state the choice is made. -/
def Corner (t : Stream) : Prop :=
  t.rest.length = t.bufsz ∧ LF ∉ t.rest ∧ t.rest.getLast? = some CR

/-- The choice is behind. -/
def Past (t : Stream) : Prop := t.rest.length < t.bufsz

theorem Past.mono {t t' : Stream} (h : Past t) (hs : t'.rest <:+ t.rest) (hb : t'.bufsz = t.bufsz) : Past t' := by
  have := hs.length_le
  unfold Past at *
  omega

theorem Spec.EndsFull.mono {N : Nat} {p q : Bytes} (h : EndsFull N p) (hs : p <:+ q) : EndsFull N q := by
  obtain ⟨x, y, rfl, h⟩ := h
  obtain ⟨z, rfl⟩ := hs
  exact ⟨z ++ x, y, by simp, h⟩

/-- Operation by operation: like the stream, or the choice. -/
structure ChoiceSim {σ : Type} [Reader σ] (R : σ → Stream → Prop) (fin : Err) (hasty : Prop) : Prop where
  two : ∀ s t, R s t → 2 ≤ t.bufsz
  last : ∀ s t, R s t → t.fin = fin
  readString : ∀ d s t, R s t → RelRes R (Reader.readString d s) (Reader.readString d t)
  readLine : ∀ s t, R s t → RelRes R (Reader.readLine s) (Reader.readLine t) ∨
    (hasty ∧ Corner t ∧ ∃ s', Reader.readLine s = .ok (t.rest, s') ∧ R s' { t with rest := [] })
  readAll : ∀ s t, R s t → RelRes R (Reader.readAll s) (Reader.readAll t)
  readFull : ∀ n s t, R s t → RelRes R (Reader.readFull n s) (Reader.readFull n t)
  readLimited : ∀ n s t, R s t → RelRes R (Reader.readLimited n s) (Reader.readLimited n t) ∨
    (hasty ∧ fin ≠ .eof ∧ n = t.rest.length ∧ Reader.readLimited n s = .err fin)
  left : ∀ s t, R s t → Reader.left s = Reader.left t

section

variable {σ : Type} {R : σ → Stream → Prop} {fin : Err} {hasty : Prop}

/-- The results from related states `s`, `t` and the whole stream of `t`: all the same,
or, if the choice was to come, the first is like one of the others and the choice is
behind. -/
inductive Tri (R : σ → Stream → Prop) (hasty : Prop) (t : Stream) {α : Type} :
    Res (α × σ) → Res (α × Stream) → Res (α × Whole) → Prop
  | ok (x : α) (s' : σ) (t' : Stream) (h : R s' t') (hs : t'.rest <:+ t.rest) (hb : t'.bufsz = t.bufsz) :
    Tri R hasty t (.ok (x, s')) (.ok (x, t')) (.ok (x, ⟨t'⟩))
  | err (e : Err) : Tri R hasty t (.err e) (.err e) (.err e)
  | panic : Tri R hasty t .panic .panic .panic
  | left {a : Res (α × σ)} {b : Res (α × Stream)} {c : Res (α × Whole)} (hp : ¬ Past t)
      (h : RelRes (fun s t => R s t ∧ Past t) a b) : Tri R hasty t a b c
  | right {a : Res (α × σ)} {b : Res (α × Stream)} {c : Res (α × Whole)} (hp : ¬ Past t) (hh : hasty)
      (he : EndsFull t.bufsz t.rest) (h : RelRes (fun s (t : Whole) => R s t.of ∧ Past t.of) a c) : Tri R hasty t a b c

/-- The same for results without a state. -/
def TriEq (hasty : Prop) (t : Stream) {β : Type} (a b c : Res β) : Prop :=
  (a = b ∧ a = c) ∨ (¬ Past t ∧ a = b) ∨ (¬ Past t ∧ hasty ∧ EndsFull t.bufsz t.rest ∧ a = c)

theorem TriEq.mono {β : Type} {t t' : Stream} {a b c : Res β} (h : TriEq hasty t' a b c) (hs : t'.rest <:+ t.rest)
    (hb : t'.bufsz = t.bufsz) : TriEq hasty t a b c := by
  rcases h with h | ⟨h1, h2⟩ | ⟨h1, h2, h3, h4⟩
  · exact .inl h
  · exact .inr (.inl ⟨fun h => h1 (h.mono hs hb), h2⟩)
  · exact .inr (.inr ⟨fun h => h1 (h.mono hs hb), h2, hb ▸ h3.mono hs, h4⟩)

theorem TriEq.map {β γ : Type} {t : Stream} {a b c : Res β} (h : TriEq hasty t a b c) (f : β → Res γ) :
    TriEq hasty t (a >>= f) (b >>= f) (c >>= f) := by
  rcases h with ⟨rfl, rfl⟩ | ⟨h1, rfl⟩ | ⟨h1, h2, h3, rfl⟩
  · exact .inl ⟨rfl, rfl⟩
  · exact .inr (.inl ⟨h1, rfl⟩)
  · exact .inr (.inr ⟨h1, h2, h3, rfl⟩)

theorem Tri.mono {α : Type} {t t' : Stream} {a : Res (α × σ)} {b : Res (α × Stream)} {c : Res (α × Whole)}
    (h : Tri R hasty t' a b c) (hs : t'.rest <:+ t.rest) (hb : t'.bufsz = t.bufsz) : Tri R hasty t a b c := by
  cases h with
  | ok x s' u h h1 h2 => exact .ok x s' u h (h1.trans hs) (h2.trans hb)
  | err e => exact .err e
  | panic => exact .panic
  | left hp h => exact .left (fun h => hp (h.mono hs hb)) h
  | right hp hh he h => exact .right (fun h => hp (h.mono hs hb)) hh (hb ▸ he.mono hs) h

/-- Behind the choice all are the same. -/
theorem Tri.past {α : Type} {t : Stream} {a : Res (α × σ)} {b : Res (α × Stream)} {c : Res (α × Whole)}
    (h : Tri R hasty t a b c) (hp : Past t) :
    RelRes (fun s t => R s t ∧ Past t) a b ∧ RelRes (fun s (t : Whole) => R s t.of ∧ Past t.of) a c := by
  cases h with
  | ok x s' u h h1 h2 => exact ⟨⟨rfl, h, hp.mono h1 h2⟩, ⟨rfl, h, hp.mono h1 h2⟩⟩
  | err e => exact ⟨rfl, rfl⟩
  | panic => exact ⟨True.intro, True.intro⟩
  | left h' => exact absurd hp h'
  | right h' => exact absurd hp h'

theorem TriEq.past {β : Type} {t : Stream} {a b c : Res β} (h : TriEq hasty t a b c) (hp : Past t) :
    a = b ∧ a = c := by
  rcases h with h | ⟨h1, h2⟩ | ⟨h1, h2, h3, h4⟩
  · exact h
  · exact absurd hp h1
  · exact absurd hp h1

theorem Tri.bind {α β : Type} {t : Stream} {a : Res (α × σ)} {b : Res (α × Stream)} {c : Res (α × Whole)}
    {f : α × σ → Res (β × σ)} {g : α × Stream → Res (β × Stream)} {k : α × Whole → Res (β × Whole)}
    (h : Tri R hasty t a b c) (hf : ∀ x s t, R s t → Tri R hasty t (f (x, s)) (g (x, t)) (k (x, ⟨t⟩))) :
    Tri R hasty t (a >>= f) (b >>= g) (c >>= k) := by
  cases h with
  | ok x s' u h h1 h2 => exact (hf x s' u h).mono h1 h2
  | err e => exact .err e
  | panic => exact .panic
  | left hp h => exact .left hp (h.bind fun x s t h => ((hf x s t h.1).past h.2).1)
  | right hp hh he h => exact .right hp hh he (h.bind fun x s t h => ((hf x s t.of h.1).past h.2).2)

theorem Tri.bind_eq {α β : Type} {t : Stream} {a : Res (α × σ)} {b : Res (α × Stream)} {c : Res (α × Whole)}
    {f : α × σ → Res β} {g : α × Stream → Res β} {k : α × Whole → Res β}
    (h : Tri R hasty t a b c) (hf : ∀ x s t, R s t → TriEq hasty t (f (x, s)) (g (x, t)) (k (x, ⟨t⟩))) :
    TriEq hasty t (a >>= f) (b >>= g) (c >>= k) := by
  cases h with
  | ok x s' u h h1 h2 => exact (hf x s' u h).mono h1 h2
  | err e => exact .inl ⟨rfl, rfl⟩
  | panic => exact .inl ⟨rfl, rfl⟩
  | left hp h => exact .inr (.inl ⟨hp, h.bind_eq fun x s t h => ((hf x s t h.1).past h.2).1⟩)
  | right hp hh he h => exact .inr (.inr ⟨hp, hh, he, h.bind_eq fun x s t h => ((hf x s t.of h.1).past h.2).2⟩)

theorem Tri.pure_bind {α β : Type} {t : Stream} {a : Res α} {f : α → Res (β × σ)} {g : α → Res (β × Stream)}
    {k : α → Res (β × Whole)} (hf : ∀ x, Tri R hasty t (f x) (g x) (k x)) :
    Tri R hasty t (a >>= f) (a >>= g) (a >>= k) := by
  cases a with
  | ok x => exact hf x
  | err e => exact .err e
  | panic => exact .panic

theorem Tri.same {α : Type} {t : Stream} (x : α) {s : σ} (h : R s t) :
    Tri R hasty t (.ok (x, s)) (.ok (x, t)) (.ok (x, ⟨t⟩)) :=
  .ok x s t h (List.suffix_refl _) rfl

/-- An operation that makes no choice. -/
theorem Tri.of {α : Type} {t : Stream} {a : Res (α × σ)} {b : Res (α × Stream)} (h : RelRes R a b)
    (hs : ∀ x t', b = .ok (x, t') → t'.rest <:+ t.rest ∧ t'.bufsz = t.bufsz) :
    Tri R hasty t a b (Whole.map b) := by
  rcases h.cases with ⟨x, s', t', rfl, rfl, h'⟩ | ⟨e, rfl, rfl⟩ | ⟨rfl, rfl⟩
  · exact .ok x s' t' h' (hs _ _ rfl).1 (hs _ _ rfl).2
  · exact .err e
  · exact .panic

theorem string_keeps (d : UInt8) (t : Stream) (x : Bytes) (t' : Stream) (h : Stream.readString d t = .ok (x, t')) :
    t'.rest <:+ t.rest ∧ t'.bufsz = t.bufsz := by
  refine ⟨string_suffix d t x t' h, ?_⟩
  unfold Stream.readString at h
  split at h <;> cases h
  rfl

theorem line_keeps (t : Stream) (x : Bytes) (t' : Stream) (h : Stream.readLine t = .ok (x, t')) :
    t'.rest <:+ t.rest ∧ t'.bufsz = t.bufsz := by
  refine ⟨line_suffix t x t' h, ?_⟩
  unfold Stream.readLine at h
  split at h
  · cases h
  · split at h
    · cases h; rfl
    · split at h
      · dsimp only at h
        split at h <;> cases h <;> rfl
      · cases h; rfl

theorem all_keeps (t : Stream) (x : Bytes) (t' : Stream) (h : Stream.readAll t = .ok (x, t')) :
    t'.rest <:+ t.rest ∧ t'.bufsz = t.bufsz := by
  refine ⟨all_suffix t x t' h, ?_⟩
  unfold Stream.readAll at h
  split at h <;> cases h
  rfl

theorem full_keeps (n : Nat) (t : Stream) (x : Bytes) (t' : Stream) (h : Stream.readFull n t = .ok (x, t')) :
    t'.rest <:+ t.rest ∧ t'.bufsz = t.bufsz := by
  refine ⟨full_suffix n t x t' h, ?_⟩
  unfold Stream.readFull at h
  split at h
  · cases h; rfl
  · split at h
    · split at h <;> cases h
    · cases h

variable [Reader σ] (S : ChoiceSim (σ := σ) R fin hasty)
include S

theorem tri_readString (d : UInt8) (s : σ) (t : Stream) (h : R s t) :
    Tri R hasty t (Reader.readString d s) (Reader.readString d t) (Reader.readString d (Whole.mk t)) :=
  Tri.of (S.readString d s t h) (string_keeps d t)

theorem tri_readAll (s : σ) (t : Stream) (h : R s t) :
    Tri R hasty t (Reader.readAll s) (Reader.readAll t) (Reader.readAll (Whole.mk t)) :=
  Tri.of (S.readAll s t h) (all_keeps t)

theorem tri_readFull (n : Nat) (s : σ) (t : Stream) (h : R s t) :
    Tri R hasty t (Reader.readFull n s) (Reader.readFull n t) (Reader.readFull n (Whole.mk t)) :=
  Tri.of (S.readFull n s t h) (full_keeps n t)

/-- The one operation that makes the choice. -/
theorem tri_readLine (s : σ) (t : Stream) (h : R s t) :
    Tri R hasty t (Reader.readLine s) (Reader.readLine t) (Reader.readLine (Whole.mk t)) := by
  have h2 := S.two s t h
  by_cases hc : Corner t
  · have hp : ¬ Past t := by unfold Past; have := hc.1; omega
    have hw : Reader.readLine (Whole.mk t) = .ok (t.rest, ⟨{ t with rest := [] }⟩) := if_pos hc
    rcases S.readLine s t h with h' | ⟨hh, -, s', h3, h4⟩
    · refine .left hp ?_
      have hl : Stream.readLine t = .ok (t.rest.dropLast, { t with rest := t.rest.drop (t.bufsz - 1) }) := by
        obtain ⟨e1, e2, e3⟩ := hc
        unfold Stream.readLine
        cases ht : t.rest with
        | nil => rw [ht] at e1; simp at e1; omega
        | cons c cs =>
          dsimp only
          rw [← ht, List.take_of_length_le (by omega), (splitAt_none _ _).2 e2]
          dsimp only
          rw [if_pos (by omega), if_pos e3]
      have hl' : Reader.readLine t = .ok (t.rest.dropLast, { t with rest := t.rest.drop (t.bufsz - 1) }) := hl
      rw [hl'] at h' ⊢
      rcases h'.cases with ⟨x, s', t', h5, h6, h7⟩ | ⟨e, h5, h6⟩ | ⟨h5, h6⟩
      · cases h6
        rw [h5]
        refine ⟨rfl, h7, ?_⟩
        show (t.rest.drop (t.bufsz - 1)).length < t.bufsz
        rw [List.length_drop]
        have := hc.1
        omega
      · cases h6
      · cases h6
    · refine .right hp hh ⟨[], t.rest, rfl, hc⟩ ?_
      rw [h3, hw]
      refine ⟨rfl, h4, ?_⟩
      show 0 < t.bufsz
      omega
  · have hw : Reader.readLine (Whole.mk t) = Whole.map (Reader.readLine t) := if_neg hc
    rw [hw]
    rcases S.readLine s t h with h' | ⟨-, h', -⟩
    · exact Tri.of h' (line_keeps t)
    · exact absurd h' hc

theorem tri_readNum (s : σ) (t : Stream) (h : R s t) :
    Tri R hasty t (readNum s) (readNum t) (readNum (Whole.mk t)) :=
  (tri_readString S _ s t h).bind fun _ _ _ h => Tri.pure_bind fun _ => Tri.pure_bind fun _ => .same _ h

theorem tri_mergeMsgLoop (f : Nat) (m : Bytes) (s : σ) (t : Stream) (h : R s t) :
    Tri R hasty t (mergeMsgLoop f m s) (mergeMsgLoop f m t) (mergeMsgLoop f m (Whole.mk t)) := by
  induction f generalizing m s t with
  | zero => exact .err _
  | succ f ih =>
    have e : ∀ {τ : Type} [Reader τ] (u : τ), mergeMsgLoop (f + 1) m u = (Reader.readLine u >>= fun p =>
        if ¬ hasPrefix p.1 b!" " then .ok ((m, p.1), p.2) else mergeMsgLoop f (m ++ (p.1 ++ [LF])) p.2) := by
      intro τ _ u
      rw [mergeMsgLoop]
      cases Reader.readLine u <;> rfl
    rw [e, e, e]
    refine (tri_readLine S s t h).bind fun x s t h => ?_
    dsimp only
    split
    · exact .same _ h
    · exact ih _ _ _ h

omit S in
/-- EOF of the first step gives `d`. -/
def orEof {α β : Type} (r : Res α) (d : Res β) (k : α → Res β) : Res β :=
  match r with
  | .err .eof => d
  | .err e => .err e
  | .panic => .panic
  | .ok a => k a

omit S [Reader σ] in
theorem Tri.orEof_eq {α β : Type} {t : Stream} {a : Res (α × σ)} {b : Res (α × Stream)} {c : Res (α × Whole)}
    {f : α × σ → Res β} {g : α × Stream → Res β} {k : α × Whole → Res β} (d : Res β)
    (h : Tri R hasty t a b c) (hf : ∀ x s t, R s t → TriEq hasty t (f (x, s)) (g (x, t)) (k (x, ⟨t⟩))) :
    TriEq hasty t (orEof a d f) (orEof b d g) (orEof c d k) := by
  cases h with
  | ok x s' u h h1 h2 => exact (hf x s' u h).mono h1 h2
  | err e => cases e <;> exact .inl ⟨rfl, rfl⟩
  | panic => exact .inl ⟨rfl, rfl⟩
  | left hp h =>
    refine .inr (.inl ⟨hp, ?_⟩)
    rcases h.cases with ⟨x, s', t', rfl, rfl, h'⟩ | ⟨e, rfl, rfl⟩ | ⟨rfl, rfl⟩
    · exact ((hf x s' t' h'.1).past h'.2).1
    · cases e <;> rfl
    · rfl
  | right hp hh he h =>
    refine .inr (.inr ⟨hp, hh, he, ?_⟩)
    rcases h.cases with ⟨x, s', t', rfl, rfl, h'⟩ | ⟨e, rfl, rfl⟩ | ⟨rfl, rfl⟩
    · exact ((hf x s' t'.of h'.1).past h'.2).2
    · cases e <;> rfl
    · rfl

omit S in
/-- Reading a line fails only at the end. -/
theorem line_err {t : Stream} {e : Err} (h : Reader.readLine t = .err e) : t.rest = [] := by
  have h : Stream.readLine t = .err e := h
  unfold Stream.readLine at h
  split at h
  · assumption
  · split at h
    · cases h
    · split at h
      · dsimp only at h
        split at h <;> cases h
      · cases h

theorem tri_lineOr {α : Type} (s : σ) (t : Stream) (h : R s t) (d : α) {f : Bytes × σ → Res (α × σ)}
    {g : Bytes × Stream → Res (α × Stream)} {k : Bytes × Whole → Res (α × Whole)}
    (hf : ∀ x s t, R s t → Tri R hasty t (f (x, s)) (g (x, t)) (k (x, ⟨t⟩))) :
    Tri R hasty t (orEof (Reader.readLine s) (.ok (d, s)) f) (orEof (Reader.readLine t) (.ok (d, t)) g)
      (orEof (Reader.readLine (Whole.mk t)) (.ok (d, ⟨t⟩)) k) := by
  have h2 := S.two s t h
  have hl := @line_err t
  have hw : ∀ e, Reader.readLine (Whole.mk t) = .err e → t.rest = [] := by
    intro e he
    by_cases hc : Corner t
    · have : Reader.readLine (Whole.mk t) = .ok (t.rest, ⟨{ t with rest := [] }⟩) := if_pos hc
      rw [this] at he
      cases he
    · have : Reader.readLine (Whole.mk t) = Whole.map (Reader.readLine t) := if_neg hc
      rw [this] at he
      cases hr : Reader.readLine t with
      | ok p => rw [hr] at he; cases he
      | err e => exact hl hr
      | panic => rw [hr] at he; cases he
  have hpast : t.rest = [] → Past t := by
    intro h
    unfold Past
    rw [h]
    simp
    omega
  have hT := tri_readLine S s t h
  revert hl hw hT
  generalize Reader.readLine s = a
  generalize Reader.readLine t = b
  generalize Reader.readLine (Whole.mk t) = c
  intro hl hw hT
  cases hT with
  | ok x s' u h h1 h2 => exact (hf x s' u h).mono h1 h2
  | err e =>
    by_cases he : e = .eof
    · subst he
      exact .same d h
    · have : ∀ {β γ : Type} (d : Res γ) (k : β → Res γ), orEof (.err e) d k = .err e := by
        intro β γ d k
        cases e <;> first | rfl | exact absurd rfl he
      rw [this, this, this]
      exact .err e
  | panic => exact .panic
  | left hp h =>
    refine .left hp ?_
    rcases h.cases with ⟨x, s', t', rfl, rfl, h'⟩ | ⟨e, rfl, rfl⟩ | ⟨rfl, rfl⟩
    · exact ((hf x s' t' h'.1).past h'.2).1
    · exact absurd (hpast (hl rfl)) hp
    · exact True.intro
  | right hp hh he h =>
    refine .right hp hh he ?_
    rcases h.cases with ⟨x, s', t', rfl, rfl, h'⟩ | ⟨e, rfl, rfl⟩ | ⟨rfl, rfl⟩
    · exact ((hf x s' t'.of h'.1).past h'.2).2
    · exact absurd (hpast (hw _ rfl)) hp
    · exact True.intro

theorem tri_mergeTagLoop (f : Nat) (o : Tag) (s : σ) (t : Stream) (h : R s t) :
    Tri R hasty t (mergeTagLoop f o s) (mergeTagLoop f o t) (mergeTagLoop f o (Whole.mk t)) := by
  induction f generalizing o s t with
  | zero => exact .err _
  | succ f ih =>
    have e : ∀ {τ : Type} [Reader τ] (u : τ), mergeTagLoop (f + 1) o u =
        orEof (Reader.readLine u) (.ok ((o, none), u)) fun p =>
          if hasPrefix p.1 b!" type " then do
            let x ← sliceFrom p.1 6
            mergeTagLoop f { o with typ := x } p.2
          else if hasPrefix p.1 b!" tag " then do
            let x ← sliceFrom p.1 5
            mergeTagLoop f { o with tag := x } p.2
          else if hasPrefix p.1 b!" tagger " then do
            let l ← sliceFrom p.1 1
            let q ← parsePersonInfo l
            mergeTagLoop f { o with tagger := q } p.2
          else if p.1 = b!" " then do
            let ((msg, rest), s) ← mergeMsgLoop (Reader.left p.2 + 1) [] p.2
            .ok (({ o with message := msg }, some rest), s)
          else mergeTagLoop f o p.2 := by
      intro τ _ u
      rw [mergeTagLoop]
      cases Reader.readLine u with
      | ok p => rfl
      | err e => cases e <;> rfl
      | panic => rfl
    rw [e, e, e]
    refine tri_lineOr S s t h _ fun x s t h => ?_
    dsimp only
    split
    · exact Tri.pure_bind fun _ => ih _ _ _ h
    split
    · exact Tri.pure_bind fun _ => ih _ _ _ h
    split
    · exact Tri.pure_bind fun _ => Tri.pure_bind fun _ => ih _ _ _ h
    split
    · rw [S.left _ _ h]
      exact (tri_mergeMsgLoop S _ _ _ _ h).bind fun _ _ _ h => .same _ h
    · exact ih _ _ _ h

theorem tri_readMergeTag (x : Bytes) (s : σ) (t : Stream) (h : R s t) :
    Tri R hasty t (readMergeTag x s) (readMergeTag x t) (readMergeTag x (Whole.mk t)) := by
  unfold readMergeTag
  rw [S.left _ _ h]
  exact Tri.pure_bind fun _ => tri_mergeTagLoop S _ _ _ _ h

theorem tri_sigLoop (f : Nat) (m : Bytes) (s : σ) (t : Stream) (h : R s t) :
    Tri R hasty t (sigLoop f m s) (sigLoop f m t) (sigLoop f m (Whole.mk t)) := by
  induction f generalizing m s t with
  | zero => exact .err _
  | succ f ih =>
    have e : ∀ {τ : Type} [Reader τ] (u : τ), sigLoop (f + 1) m u = (Reader.readLine u >>= fun p =>
        if p.1 = b!" -----END PGP SIGNATURE-----" then .ok (m, p.2) else sigLoop f (m ++ (p.1 ++ [LF])) p.2) := by
      intro τ _ u
      rw [sigLoop]
      cases Reader.readLine u <;> rfl
    rw [e, e, e]
    refine (tri_readLine S s t h).bind fun x s t h => ?_
    dsimp only
    split
    · exact .same _ h
    · exact ih _ _ _ h

theorem tri_decodeGpgSig (s : σ) (t : Stream) (h : R s t) :
    Tri R hasty t (decodeGpgSig s) (decodeGpgSig t) (decodeGpgSig (Whole.mk t)) := by
  unfold decodeGpgSig
  refine (tri_readLine S s t h).bind fun l s t h => Tri.pure_bind fun sig => ?_
  rw [S.left _ _ h]
  exact tri_sigLoop S _ _ _ _ h

omit S [Reader σ] in
theorem Tri.ite {α : Type} {t : Stream} {p : Prop} [Decidable p] {a a' : Res (α × σ)} {b b' : Res (α × Stream)}
    {c c' : Res (α × Whole)} (h : Tri R hasty t a b c) (h' : Tri R hasty t a' b' c') :
    Tri R hasty t (if p then a else a') (if p then b else b') (if p then c else c') := by
  by_cases hp : p
  · rw [if_pos hp, if_pos hp, if_pos hp]; exact h
  · rw [if_neg hp, if_neg hp, if_neg hp]; exact h'

theorem tri_commitLine (f : Nat) (c : Commit) (l : Bytes) (s : σ) (t : Stream) (h : R s t) :
    Tri R hasty t (commitLine f c l s) (commitLine f c l t) (commitLine f c l (Whole.mk t)) := by
  induction f generalizing c l s t with
  | zero => exact .err _
  | succ f ih =>
    unfold commitLine
    refine .ite (Tri.pure_bind fun _ => Tri.pure_bind fun _ => Tri.pure_bind fun _ => .same _ h) ?_
    refine .ite (Tri.pure_bind fun _ => Tri.pure_bind fun _ => Tri.pure_bind fun _ => .same _ h) ?_
    refine .ite (Tri.pure_bind fun _ => .same _ h) ?_
    refine .ite (Tri.pure_bind fun _ => .same _ h) ?_
    refine .ite (Tri.pure_bind fun _ => .same _ h) ?_
    refine .ite (Tri.pure_bind fun _ => Tri.pure_bind fun _ => (tri_readMergeTag S _ s t h).bind ?_) ?_
    · rintro ⟨mt, rest⟩ s t h
      cases rest with
      | none => exact .same _ h
      | some l => exact ih _ _ _ _ h
    refine .ite ((tri_decodeGpgSig S s t h).bind fun _ _ _ h => .same _ h) ?_
    exact .ite ((tri_readAll S s t h).bind fun _ _ _ h => .same _ h) (.same _ h)

theorem tri_commitLoop (f : Nat) (c : Commit) (s : σ) (t : Stream) (h : R s t) :
    TriEq hasty t (commitLoop f c s) (commitLoop f c t) (commitLoop f c (Whole.mk t)) := by
  induction f generalizing c s t with
  | zero => exact .inl ⟨rfl, rfl⟩
  | succ f ih =>
    have e : ∀ {τ : Type} [Reader τ] (u : τ), commitLoop (f + 1) c u = orEof (Reader.readLine u) (.ok c) fun p =>
        commitLine (Reader.left p.2 + 1) c p.1 p.2 >>= fun q => commitLoop f q.1 q.2 := by
      intro τ _ u
      rw [commitLoop]
      cases Reader.readLine u with
      | ok p => rfl
      | err e => cases e <;> rfl
      | panic => rfl
    rw [e, e, e]
    refine (tri_readLine S s t h).orEof_eq _ fun x s t h => ?_
    dsimp only
    rw [S.left _ _ h]
    exact (tri_commitLine S _ _ _ _ _ h).bind_eq fun _ _ _ h => ih _ _ _ h

theorem tri_decodeCommit (s : σ) (t : Stream) (h : R s t) :
    TriEq hasty t (decodeCommit s) (decodeCommit t) (decodeCommit (Whole.mk t)) := by
  unfold decodeCommit
  refine (tri_readNum S s t h).bind_eq fun _ s t h => ?_
  dsimp only
  rw [S.left _ _ h]
  exact tri_commitLoop S _ _ _ _ h

theorem tri_tagLine (o : Tag) (l : Bytes) (s : σ) (t : Stream) (h : R s t) :
    Tri R hasty t (tagLine o l s) (tagLine o l t) (tagLine o l (Whole.mk t)) := by
  unfold tagLine
  refine .ite (Tri.pure_bind fun _ => Tri.pure_bind fun _ => Tri.pure_bind fun _ => .same _ h) ?_
  refine .ite (Tri.pure_bind fun _ => .same _ h) ?_
  refine .ite (Tri.pure_bind fun _ => .same _ h) ?_
  refine .ite (Tri.pure_bind fun _ => .same _ h) ?_
  exact .ite ((tri_readAll S s t h).bind fun _ _ _ h => .same _ h) (.same _ h)

theorem tri_tagLoop (f : Nat) (c : Tag) (s : σ) (t : Stream) (h : R s t) :
    TriEq hasty t (tagLoop f c s) (tagLoop f c t) (tagLoop f c (Whole.mk t)) := by
  induction f generalizing c s t with
  | zero => exact .inl ⟨rfl, rfl⟩
  | succ f ih =>
    have e : ∀ {τ : Type} [Reader τ] (u : τ), tagLoop (f + 1) c u = orEof (Reader.readLine u) (.ok c) fun p =>
        tagLine c p.1 p.2 >>= fun q => tagLoop f q.1 q.2 := by
      intro τ _ u
      rw [tagLoop]
      cases Reader.readLine u with
      | ok p => rfl
      | err e => cases e <;> rfl
      | panic => rfl
    rw [e, e, e]
    refine (tri_readLine S s t h).orEof_eq _ fun x s t h => ?_
    exact (tri_tagLine S _ _ _ _ h).bind_eq fun _ _ _ h => ih _ _ _ h

theorem tri_decodeTag (s : σ) (t : Stream) (h : R s t) :
    TriEq hasty t (decodeTag s) (decodeTag t) (decodeTag (Whole.mk t)) := by
  unfold decodeTag
  refine (tri_readString S _ s t h).bind_eq fun _ s t h => ?_
  dsimp only
  rw [S.left _ _ h]
  exact tri_tagLoop S _ _ _ _ h

/-- Trees are read without the operations that differ. -/
theorem choice_decodeTreeEntry (s : σ) (t : Stream) (h : R s t) : RelRes R (decodeTreeEntry s) (decodeTreeEntry t) :=
  (S.readString _ s t h).bind fun _ _ _ h => RelRes.pure_bind fun _ =>
    (S.readString _ _ _ h).bind fun _ _ _ h => RelRes.pure_bind fun _ =>
      (S.readFull _ _ _ h).bind fun _ _ _ h => RelRes.pure_bind fun _ => .ok _ h

theorem choice_treeLoop (f : Nat) (c : Tree) (s : σ) (t : Stream) (h : R s t) : treeLoop f c s = treeLoop f c t := by
  induction f generalizing c s t with
  | zero => rfl
  | succ f ih =>
    unfold treeLoop
    rcases (choice_decodeTreeEntry S s t h).cases with ⟨⟨n, x⟩, s', t', h1, h2, h3⟩ | ⟨e, h1, h2⟩ | ⟨h1, h2⟩
    · rw [h1, h2]
      simp only
      cases treeAdd c n x with
      | ok c' => exact ih _ _ _ h3
      | err e => rfl
      | panic => rfl
    · rw [h1, h2]; cases e <;> rfl
    · rw [h1, h2]

theorem choice_readNum (s : σ) (t : Stream) (h : R s t) : RelRes R (readNum s) (readNum t) :=
  (S.readString _ s t h).bind fun _ _ _ h => RelRes.pure_bind fun _ => RelRes.pure_bind fun _ => .ok _ h

theorem choice_decodeTree (s : σ) (t : Stream) (h : R s t) : decodeTree s = decodeTree t := by
  unfold decodeTree
  refine (choice_readNum S s t h).bind_eq fun _ s t h => ?_
  simp only
  rw [S.left _ _ h]
  exact choice_treeLoop S _ _ _ _ h

/-- A blob may be refused though it is complete. -/
theorem choice_decodeBlob (s : σ) (t : Stream) (h : R s t) : decodeBlob s = decodeBlob t ∨
    (hasty ∧ fin ≠ .eof ∧ decodeBlob s = .err fin ∧ ∃ b, decodeBlob t = .ok b) := by
  unfold decodeBlob
  rcases (choice_readNum S s t h).cases with ⟨n, s', t', h1, h2, h3⟩ | ⟨e, h1, h2⟩ | ⟨h1, h2⟩
  · rw [h1, h2]
    simp only [Res.bind_ok]
    split
    · exact .inl rfl
    · rcases S.readLimited n.toNat s' t' h3 with h | ⟨h4, h5, h6, h7⟩
      · exact .inl (h.bind_eq fun _ _ _ _ => rfl)
      · right
        refine ⟨h4, h5, by rw [h7]; rfl, ?_⟩
        have : Reader.readLimited n.toNat t' = .ok (t'.rest.take n.toNat, { t' with rest := t'.rest.drop n.toNat }) :=
          if_pos (by omega)
        rw [this]
        simp only [Res.bind_ok]
        rw [if_neg (by rw [List.length_take]; omega)]
        exact ⟨_, rfl⟩
  · rw [h1, h2]; exact .inl rfl
  · rw [h1, h2]; exact .inl rfl

omit S in
theorem whole_readType (t : Stream) : readType (Whole.mk t) = Whole.map (readType t) := by
  unfold readType
  have e : Reader.readString SP (Whole.mk t) = Whole.map (Reader.readString SP t) := rfl
  rw [e]
  cases Reader.readString SP t with
  | ok p =>
    obtain ⟨w, u⟩ := p
    show (chop w >>= fun w => .ok (w, ⟨u⟩) : Res (Bytes × Whole)) = Whole.map (chop w >>= fun w => .ok (w, u))
    cases chop w <;> rfl
  | err e => cases e <;> rfl
  | panic => rfl

omit S in
theorem type_keeps {t t' : Stream} {w : Bytes} (h : readType t = .ok (w, t')) :
    t'.rest <:+ t.rest ∧ t'.bufsz = t.bufsz := by
  unfold readType at h
  cases hr : Reader.readString SP t with
  | ok p =>
    obtain ⟨x, u⟩ := p
    rw [hr] at h
    have h : (chop x >>= fun w => Res.ok (w, u)) = .ok (w, t') := h
    cases hc : chop x with
    | ok y =>
      rw [hc] at h
      cases h
      exact string_keeps _ _ _ _ hr
    | err e => rw [hc] at h; cases h
    | panic => rw [hc] at h; cases h
  | err e => rw [hr] at h; cases e <;> cases h
  | panic => rw [hr] at h; cases h

theorem choice_readType (s : σ) (t : Stream) (h : R s t) : RelRes R (readType s) (readType t) := by
  unfold readType
  rcases (S.readString SP s t h).cases with ⟨x, s', t', h1, h2, h3⟩ | ⟨e, h1, h2⟩ | ⟨h1, h2⟩
  · rw [h1, h2]
    exact RelRes.pure_bind fun _ => .ok _ h3
  · rw [h1, h2]; cases e <;> exact rfl
  · rw [h1, h2]; exact True.intro

/-- The object read is that of the stream, or that of the stream whose last piece
comes whole, or a complete blob is refused. -/
theorem choice_parseObject (s : σ) (t : Stream) (h : R s t) :
    parseObject s = parseObject t ∨
    (hasty ∧ EndsFull t.bufsz t.rest ∧ parseObject s = parseObject (Whole.mk t)) ∨
    (hasty ∧ fin ≠ .eof ∧ parseObject s = .err fin ∧ ∃ b, parseObject t = .ok (.blob b)) := by
  have hR := choice_readType S s t h
  rcases hR.cases with ⟨w, s', t', h1, h2, h3⟩ | ⟨e, h1, h2⟩ | ⟨h1, h2⟩
  · have hw : readType (Whole.mk t) = .ok (w, ⟨t'⟩) := by rw [whole_readType, h2]; rfl
    have hk := type_keeps h2
    have hc : w = b!"commit" ∨ w = b!"tag" →
        TriEq hasty t (parseObject s) (parseObject t) (parseObject (Whole.mk t)) := by
      rintro (rfl | rfl)
      · have e : ∀ {τ : Type} [Reader τ] (u v : τ), readType u = .ok (b!"commit", v) →
            parseObject u = (decodeCommit v >>= fun c => .ok (.commit c)) := by
          intro τ _ u v h
          unfold parseObject
          rw [h]
          rfl
        rw [e _ _ h1, e _ _ h2, e _ _ hw]
        exact ((tri_decodeCommit S s' t' h3).mono hk.1 hk.2).map _
      · have e : ∀ {τ : Type} [Reader τ] (u v : τ), readType u = .ok (b!"tag", v) →
            parseObject u = (decodeTag v >>= fun c => .ok (.tag c)) := by
          intro τ _ u v h
          unfold parseObject
          rw [h]
          rfl
        rw [e _ _ h1, e _ _ h2, e _ _ hw]
        exact ((tri_decodeTag S s' t' h3).mono hk.1 hk.2).map _
    by_cases hw : w = b!"commit" ∨ w = b!"tag"
    · rcases hc hw with h | h | h
      · exact .inl h.1
      · exact .inl h.2
      · exact .inr (.inl h.2)
    · unfold parseObject
      rw [h1, h2]
      simp only [Res.bind_ok]
      rw [choice_decodeTree S s' t' h3]
      by_cases h4 : w = b!"tree"
      · left; rw [if_pos h4, if_pos h4]
      rw [if_neg h4, if_neg h4, if_neg (fun h => hw (.inl h)), if_neg (fun h => hw (.inl h))]
      by_cases h5 : w = b!"blob"
      · rw [if_pos h5, if_pos h5]
        rcases choice_decodeBlob S s' t' h3 with h | ⟨h6, h7, h8, b, h9⟩
        · left; rw [h]
        · exact .inr (.inr ⟨h6, h7, by rw [h8]; rfl, b, by rw [h9]; rfl⟩)
      · rw [if_neg h5, if_neg h5, if_neg (fun h => hw (.inr h)), if_neg (fun h => hw (.inr h))]
        exact .inl rfl
  · left; unfold parseObject; rw [h1, h2]; rfl
  · left; unfold parseObject; rw [h1, h2]; rfl

end

theorem RelRes.keep {σ α : Type} {R : σ → Stream → Prop} {N : Nat} {a : Res (α × σ)} {b : Res (α × Stream)}
    {t : Stream} (h : RelRes R a b) (hN : N ≤ t.bufsz) (hk : ∀ x t', b = .ok (x, t') → t'.bufsz = t.bufsz) :
    RelRes (fun s t => R s t ∧ N ≤ t.bufsz) a b := by
  rcases h.cases with ⟨x, s', t', rfl, rfl, h'⟩ | ⟨e, rfl, rfl⟩ | ⟨rfl, rfl⟩
  · exact .ok _ ⟨h', by rw [hk x t' rfl]; exact hN⟩
  · exact .err _
  · exact True.intro

theorem limited_keeps (n : Nat) (t : Stream) (x : Bytes) (t' : Stream) (h : Stream.readLimited n t = .ok (x, t')) :
    t'.bufsz = t.bufsz := by
  unfold Stream.readLimited at h
  split at h
  · cases h; rfl
  · split at h <;> cases h
    rfl

section

variable {ρ : Type} [Source ρ] {inv : ρ → Prop} {pending : ρ → Bytes} {fin : Err} {eager : Prop}

/-- The concrete buffered reader behaves so, over every reader. -/
theorem bufio_choice (D : Delivers ρ inv pending fin eager) :
    ChoiceSim (σ := Bufio ρ) (fun b t => MatchAny inv pending fin eager b t ∧ 2 ≤ t.bufsz) fin eager where
  two _ _ h := h.2
  last _ _ h := h.1.last
  readString d b t h := (bufio_string D d b t h.1).keep h.2 fun x t' e => (string_keeps d t x t' e).2
  readLine b t h := by
    rcases readLine_match D b t h.1 with h' | ⟨h1, h2, h3, h4, b', h5, h6⟩
    · exact .inl (h'.keep h.2 fun x t' e => (line_keeps t x t' e).2)
    · exact .inr ⟨h1, ⟨h2, h3, h4⟩, b', h5, h6, h.2⟩
  readAll b t h := (bufio_all D b t h.1).keep h.2 fun x t' e => (all_keeps t x t' e).2
  readFull n b t h := (bufio_full D n b t h.1).keep h.2 fun x t' e => (full_keeps n t x t' e).2
  readLimited n b t h := by
    rcases bufio_limited D n b t h.1 with h' | h'
    · exact .inl (h'.keep h.2 fun x t' e => (limited_keeps n t x t' e))
    · exact .inr h'
  left b t h := bufio_left D b t h.1

end

end Verif
