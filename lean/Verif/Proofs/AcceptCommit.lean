import Verif.Proofs.AcceptTag

/-!
# Commits accepted by the decoder
-/

namespace Verif

open Spec

/-! ## lengths -/

theorem Line_lt {N : Nat} {b l r : Bytes} (hN : 2 ≤ N) (h : Line N b l r) : r.length < b.length := by
  have := (Stream.readLine_lt _ _ _ (by exact hN) (Line_readLine .eof hN h)).lt
  exact this

theorem sigBody_lt {N : Nat} {b r : Bytes} {ls : List Bytes} (hN : 2 ≤ N) (h : SigBody N b ls r) :
    r.length < b.length := by
  induction h with
  | stop b r h => exact Line_lt hN h
  | more b l r r' ls h _ _ ih => have := Line_lt hN h; omega

theorem mergeHead_lt {N : Nat} {b r : Bytes} {ls : List Bytes} (hN : 2 ≤ N) (h : MergeHead N b ls r) :
    r.length < b.length := by
  induction h with
  | stop b r h => exact Line_lt hN h
  | more b l r r' ls h _ _ ih => have := Line_lt hN h; omega

theorem mergeMsg_le {N : Nat} {b r : Bytes} {ls : List Bytes} (hN : 2 ≤ N) (h : MergeMsg N b ls r) :
    r.length ≤ b.length := by
  induction h with
  | stop b l r h => exact Nat.le_refl _
  | more b l r r' ls h _ _ ih => have := Line_lt hN h; omega

theorem unlines_cons' (l : Bytes) (ls : List Bytes) : unlines (l :: ls) = (l ++ [LF]) ++ unlines ls := rfl

theorem sp_prefix_iff (l : Bytes) : b!" " <+: l ↔ l.head? = some SP := by
  cases l with
  | nil => simp
  | cons c cs =>
    simp only [List.cons_prefix_cons, List.nil_prefix, and_true, List.head?_cons, Option.some.injEq]
    exact eq_comm

/-! ## signatures -/

theorem sigRun_iff (m g : Bytes) (s s' : Stream) (hN : 2 ≤ s.bufsz) :
    sigRun m s = .ok (g, s') ↔
      ∃ ls, SigBody s.bufsz s.rest ls s'.rest ∧ g = m ++ unlines ls ∧ s' = { s with rest := s'.rest } := by
  induction s using stream_induct generalizing m with
  | h s ih =>
    rw [sigRun_eq m s hN]
    cases hr : Stream.readLine s with
    | panic => exact absurd hr (Stream.readLine_ne_panic s)
    | err e =>
      obtain ⟨h1, h2⟩ := (Stream.readLine_err s e).1 hr
      constructor
      · intro h; simp at h
      · rintro ⟨ls, h, _⟩
        rw [h1] at h
        cases h with
        | stop _ _ h => exact (Line_nil hN h).elim
        | more _ _ _ _ _ h => exact (Line_nil hN h).elim
    | ok p =>
      obtain ⟨l, s1⟩ := p
      have hlt := Stream.readLine_lt s s1 l hN hr
      have hline := readLine_Line _ _ _ hr hN
      have hN1 : 2 ≤ s1.bufsz := by rw [hlt.bufsz]; exact hN
      have hs1 : ∀ r, ({ s1 with rest := r } : Stream) = { s with rest := r } := by
        intro r; rw [Stream.mk.injEq]; exact ⟨rfl, hlt.fin, hlt.bufsz⟩
      have hs2 : ∀ r, ({ rest := r, fin := s1.fin, bufsz := s.bufsz } : Stream) = { s with rest := r } := by
        intro r; rw [Stream.mk.injEq]; exact ⟨rfl, hlt.fin, rfl⟩
      simp only
      split
      · rename_i hl
        constructor
        · intro h
          simp only [Res.ok.injEq, Prod.mk.injEq] at h
          obtain ⟨rfl, rfl⟩ := h
          refine ⟨[], .stop _ _ ?_, by simp [unlines], hs1 _⟩
          rw [← show l = sigEnd from hl]; exact hline
        · rintro ⟨ls, h, rfl, hs⟩
          cases h with
          | stop _ _ h =>
            have := (Line_unique hN hline h).2
            simp only [Res.ok.injEq, Prod.mk.injEq]
            refine ⟨by simp [unlines], ?_⟩
            rw [hs, ← this]; exact hs1 _
          | more _ _ _ _ _ h hne =>
            have := (Line_unique hN hline h).1
            exact absurd (this.symm.trans hl) hne
      · rename_i hl
        rw [ih s1 hlt _ hN1, hlt.bufsz]
        constructor
        · rintro ⟨ls, h, rfl, hs⟩
          exact ⟨l :: ls, .more _ _ _ _ _ hline hl h, by simp [unlines_cons'], hs.trans (hs2 _)⟩
        · rintro ⟨ls, h, rfl, hs⟩
          cases h with
          | stop _ _ h => exact absurd (Line_unique hN hline h).1 hl
          | more _ _ _ _ ls h hne hr =>
            obtain ⟨rfl, rfl⟩ := Line_unique hN hline h
            exact ⟨ls, hr, by simp [unlines_cons'], hs.trans (hs2 _).symm⟩

theorem gpgSig_iff (g : Bytes) (s s' : Stream) (hN : 2 ≤ s.bufsz) :
    decodeGpgSig s = .ok (g, s') ↔
      ∃ ls, SigBody s.bufsz s.rest ls s'.rest ∧ SigStart ls ∧ g = unlines ls ∧
        s' = { s with rest := s'.rest } := by
  rw [decodeGpgSig_eq]
  constructor
  · intro h
    obtain ⟨⟨l, s1⟩, h1, h⟩ := Res.bind_eq_ok.1 h
    obtain ⟨sig, h2, h⟩ := Res.bind_eq_ok.1 h
    have hlt := Stream.readLine_lt s s1 l hN h1
    have hline := readLine_Line _ _ _ h1 hN
    obtain ⟨ls, h3, h4, h5⟩ := (sigRun_iff _ _ _ _ (by rw [hlt.bufsz]; exact hN)).1 h
    rw [hlt.bufsz] at h3
    have hstart : l = b!" " ∨ b!" Version: " <+: l ∨ b!" Comment: " <+: l := by
      split at h2
      · split at h2
        · rename_i h6
          simp only [Bool.or_eq_true, hasPrefix_iff'] at h6
          exact Or.inr h6
        · simp at h2
      · rename_i h6; exact Or.inl (Decidable.not_not.1 h6)
    have hsig : sig = l ++ [LF] := by
      split at h2
      · split at h2
        · simpa using h2.symm
        · simp at h2
      · rename_i h6
        simp only [Res.ok.injEq] at h2
        rw [← h2, Decidable.not_not.1 h6]; rfl
    have hne : l ≠ sigEnd := by
      rintro rfl
      revert hstart; decide
    refine ⟨l :: ls, .more _ _ _ _ _ hline hne h3, ⟨l, rfl, hstart⟩, ?_, ?_⟩
    · rw [h4, hsig, unlines_cons']
    · refine h5.trans ?_
      rw [Stream.mk.injEq]; exact ⟨rfl, hlt.fin, hlt.bufsz⟩
  · rintro ⟨ls, h, ⟨l, hl, hstart⟩, rfl, hs⟩
    cases h with
    | stop _ _ h => simp at hl
    | more _ l' r _ ls h hne hr =>
      simp only [List.head?_cons, Option.some.injEq] at hl
      subst hl
      have h1 := Line_readLine s.fin hN h
      have h1 : Stream.readLine s = .ok (l', ⟨r, s.fin, s.bufsz⟩) := h1
      rw [h1]
      simp only [Res.bind_ok]
      have h2 : (if l' ≠ b!" " then
          if hasPrefix l' b!" Version: " || hasPrefix l' b!" Comment: " then Res.ok (l' ++ [LF])
          else .err .badSig
        else .ok b!" \n") = .ok (l' ++ [LF]) := by
        split
        · rename_i h6
          rw [if_pos]
          simp only [Bool.or_eq_true, hasPrefix_iff']
          rcases hstart with h7 | h7
          · exact absurd h7 h6
          · exact h7
        · rename_i h6
          rw [Decidable.not_not.1 h6]; rfl
      rw [h2]
      simp only [Res.bind_ok]
      rw [sigRun_iff _ _ _ _ (by exact hN)]
      exact ⟨ls, hr, rfl, hs⟩

/-! ## merge tags -/

theorem mergeMsgRun_iff (m x l : Bytes) (s s' : Stream) (hN : 2 ≤ s.bufsz) :
    mergeMsgRun m s = .ok ((x, l), s') ↔
      ∃ msg r, MergeMsg s.bufsz s.rest msg r ∧ Line s.bufsz r l s'.rest ∧ x = m ++ unlines msg ∧
        s' = { s with rest := s'.rest } := by
  induction s using stream_induct generalizing m with
  | h s ih =>
    rw [mergeMsgRun_eq m s hN]
    cases hr : Stream.readLine s with
    | panic => exact absurd hr (Stream.readLine_ne_panic s)
    | err e =>
      obtain ⟨h1, h2⟩ := (Stream.readLine_err s e).1 hr
      constructor
      · intro h; simp at h
      · rintro ⟨ls, r, h, _⟩
        rw [h1] at h
        cases h with
        | stop _ _ _ h => exact (Line_nil hN h).elim
        | more _ _ _ _ _ h => exact (Line_nil hN h).elim
    | ok p =>
      obtain ⟨l1, s1⟩ := p
      have hlt := Stream.readLine_lt s s1 l1 hN hr
      have hline := readLine_Line _ _ _ hr hN
      have hN1 : 2 ≤ s1.bufsz := by rw [hlt.bufsz]; exact hN
      have hs1 : ∀ r, ({ s1 with rest := r } : Stream) = { s with rest := r } := by
        intro r; rw [Stream.mk.injEq]; exact ⟨rfl, hlt.fin, hlt.bufsz⟩
      have hs2 : ∀ r, ({ rest := r, fin := s1.fin, bufsz := s.bufsz } : Stream) = { s with rest := r } := by
        intro r; rw [Stream.mk.injEq]; exact ⟨rfl, hlt.fin, rfl⟩
      simp only [hasPrefix_iff', sp_prefix_iff]
      split
      · rename_i hl
        constructor
        · intro h
          simp only [Res.ok.injEq, Prod.mk.injEq] at h
          obtain ⟨⟨rfl, rfl⟩, rfl⟩ := h
          exact ⟨[], s.rest, .stop _ _ _ hline hl, hline, by simp [unlines], hs1 _⟩
        · rintro ⟨ls, r, h, h', rfl, hs⟩
          cases h with
          | stop _ _ _ h =>
            obtain ⟨rfl, h2⟩ := Line_unique hN hline h'
            simp only [Res.ok.injEq, Prod.mk.injEq]
            refine ⟨⟨by simp [unlines], trivial⟩, ?_⟩
            rw [hs, ← h2]; exact hs1 _
          | more _ _ _ _ _ h hsp =>
            rw [← (Line_unique hN hline h).1] at hsp
            exact absurd hsp hl
      · rename_i hl
        rw [ih s1 hlt _ hN1, hlt.bufsz]
        constructor
        · rintro ⟨ls, r, h, h', rfl, hs⟩
          exact ⟨l1 :: ls, r, .more _ _ _ _ _ hline (Decidable.not_not.1 hl) h, h', by simp [unlines_cons'],
            hs.trans (hs2 _)⟩
        · rintro ⟨ls, r, h, h', rfl, hs⟩
          cases h with
          | stop _ _ _ h hne => rw [← (Line_unique hN hline h).1] at hne; exact absurd hne hl
          | more _ _ _ _ ls h hne hr =>
            obtain ⟨rfl, rfl⟩ := Line_unique hN hline h
            exact ⟨ls, r, hr, h', by simp [unlines_cons'], hs.trans (hs2 _).symm⟩

/-- What the lines of a merge tag mean for a tag that has been read in part. -/
structure MergeFrom (o : Tag) (ls : List Bytes) (msg : Option (List Bytes)) (t : Tag) : Prop where
  object : t.object = o.object
  typ : t.typ = (behind b!" type " ls).getLast?.getD o.typ
  tag : t.tag = (behind b!" tag " ls).getLast?.getD o.tag
  tagger : LastValue PersonRead ((linesWith b!" tagger " ls).map (·.drop 1)) o.tagger t.tagger
  message : t.message = (msg.map unlines).getD o.message

/-- One line of a merge tag. -/
def MergeStep (o : Tag) (l : Bytes) (o' : Tag) : Prop :=
  if b!" type " <+: l then o' = { o with typ := l.drop 6 }
  else if b!" tag " <+: l then o' = { o with tag := l.drop 5 }
  else if b!" tagger " <+: l then ∃ p, PersonRead (l.drop 1) p ∧ o' = { o with tagger := p }
  else o' = o

theorem mergeFrom_nil (o t : Tag) (msg : Option (List Bytes)) :
    MergeFrom o [] msg t ↔ t = { o with message := (msg.map unlines).getD o.message } := by
  obtain ⟨a, b, c, d, e⟩ := t
  constructor
  · rintro ⟨h1, h2, h3, h4, h5⟩
    replace h4 := (lastValue_nil _ _ _).1 h4
    simp only [behind, linesWith, List.filter_nil, List.map_nil, List.getLast?_nil, Option.getD_none] at h1 h2 h3 h4 h5
    subst h1 h2 h3 h4 h5
    rfl
  · intro h
    rw [Tag.mk.injEq] at h
    obtain ⟨rfl, rfl, rfl, rfl, rfl⟩ := h
    exact ⟨rfl, rfl, rfl, (lastValue_nil _ _ _).2 rfl, rfl⟩

theorem mergeFrom_cons (o : Tag) (l : Bytes) (ls : List Bytes) (m : Option (List Bytes)) (t : Tag) :
    MergeFrom o (l :: ls) m t ↔ ∃ o', MergeStep o l o' ∧ MergeFrom o' ls m t := by
  unfold MergeStep
  split
  · rename_i h
    have h1 : ¬ b!" tag " <+: l := prefix_excl h (by decide) (by decide)
    have h2 : ¬ b!" tagger " <+: l := prefix_excl h (by decide) (by decide)
    constructor
    · rintro ⟨a, b, c, d, e⟩
      rw [behind_pos _ h, getLast?_cons_getD] at b
      rw [behind_neg _ h1] at c
      rw [linesWith_neg _ h2] at d
      exact ⟨_, rfl, a, b, c, d, e⟩
    · rintro ⟨_, rfl, a, b, c, d, e⟩
      refine ⟨a, ?_, ?_, ?_, e⟩
      · rw [behind_pos _ h, getLast?_cons_getD]; exact b
      · rw [behind_neg _ h1]; exact c
      · rw [linesWith_neg _ h2]; exact d
  split
  · rename_i h0 h
    have h2 : ¬ b!" tagger " <+: l := prefix_excl h (by decide) (by decide)
    constructor
    · rintro ⟨a, b, c, d, e⟩
      rw [behind_neg _ h0] at b
      rw [behind_pos _ h, getLast?_cons_getD] at c
      rw [linesWith_neg _ h2] at d
      exact ⟨_, rfl, a, b, c, d, e⟩
    · rintro ⟨_, rfl, a, b, c, d, e⟩
      refine ⟨a, ?_, ?_, ?_, e⟩
      · rw [behind_neg _ h0]; exact b
      · rw [behind_pos _ h, getLast?_cons_getD]; exact c
      · rw [linesWith_neg _ h2]; exact d
  split
  · rename_i h0 h1 h
    constructor
    · rintro ⟨a, b, c, d, e⟩
      rw [behind_neg _ h0] at b
      rw [behind_neg _ h1] at c
      rw [linesWith_pos _ h, List.map_cons, lastValue_cons] at d
      obtain ⟨y, hy, d⟩ := d
      exact ⟨_, ⟨y, hy, rfl⟩, a, b, c, d, e⟩
    · rintro ⟨_, ⟨y, hy, rfl⟩, a, b, c, d, e⟩
      refine ⟨a, ?_, ?_, ?_, e⟩
      · rw [behind_neg _ h0]; exact b
      · rw [behind_neg _ h1]; exact c
      · rw [linesWith_pos _ h, List.map_cons, lastValue_cons]; exact ⟨y, hy, d⟩
  · rename_i h0 h1 h2
    constructor
    · rintro ⟨a, b, c, d, e⟩
      rw [behind_neg _ h0] at b
      rw [behind_neg _ h1] at c
      rw [linesWith_neg _ h2] at d
      exact ⟨_, rfl, a, b, c, d, e⟩
    · rintro ⟨_, rfl, a, b, c, d, e⟩
      refine ⟨a, ?_, ?_, ?_, e⟩
      · rw [behind_neg _ h0]; exact b
      · rw [behind_neg _ h1]; exact c
      · rw [linesWith_neg _ h2]; exact d

/-- How a merge tag ends: where the stream ends, or before the line `l`. -/
def MergeEnd (N : Nat) (b : Bytes) (ls : List Bytes) (msg : Option (List Bytes)) (l : Option Bytes)
    (r : Bytes) : Prop :=
  match msg, l with
  | none, none => MergeCut N b ls ∧ r = []
  | some msg, some l => ∃ r1 r2, MergeHead N b ls r1 ∧ MergeMsg N r1 msg r2 ∧ Line N r2 l r
  | _, _ => False

theorem mergeEnd_cons {N : Nat} {b l r r' : Bytes} (hN : 2 ≤ N) (hline : Line N b l r) (hne : l ≠ b!" ")
    (L : List Bytes) (msg : Option (List Bytes)) (x : Option Bytes) :
    MergeEnd N b L msg x r' ↔ ∃ ls, L = l :: ls ∧ MergeEnd N r ls msg x r' := by
  unfold MergeEnd
  cases msg <;> cases x <;> simp only
  · constructor
    · rintro ⟨h, rfl⟩
      cases h with
      | stop => exact (Line_nil hN hline).elim
      | more _ _ _ ls h hne hr =>
        obtain ⟨rfl, rfl⟩ := Line_unique hN hline h
        exact ⟨ls, rfl, hr, rfl⟩
    · rintro ⟨ls, rfl, h, rfl⟩
      exact ⟨.more _ _ _ _ hline hne h, rfl⟩
  · simp
  · simp
  · constructor
    · rintro ⟨r1, r2, h, h1, h2⟩
      cases h with
      | stop _ _ h => exact absurd (Line_unique hN hline h).1 hne
      | more _ _ _ _ ls h hne hr =>
        obtain ⟨rfl, rfl⟩ := Line_unique hN hline h
        exact ⟨ls, rfl, r1, r2, hr, h1, h2⟩
    · rintro ⟨ls, rfl, r1, r2, h, h1, h2⟩
      exact ⟨r1, r2, .more _ _ _ _ _ hline hne h, h1, h2⟩

theorem mergeTagRun_iff (o t : Tag) (x : Option Bytes) (s s' : Stream) (hN : 2 ≤ s.bufsz) (hf : s.fin = .eof) :
    mergeTagRun o s = .ok ((t, x), s') ↔
      ∃ ls msg, MergeEnd s.bufsz s.rest ls msg x s'.rest ∧ MergeFrom o ls msg t ∧
        s' = { s with rest := s'.rest } := by
  induction s using stream_induct generalizing o with
  | h s ih =>
    rw [mergeTagRun_eq o s hN]
    cases hr : Stream.readLine s with
    | panic => exact absurd hr (Stream.readLine_ne_panic s)
    | err e =>
      obtain ⟨h1, h2⟩ := (Stream.readLine_err s e).1 hr
      rw [hf] at h2
      subst h2
      simp only [Res.ok.injEq, Prod.mk.injEq]
      constructor
      · rintro ⟨⟨rfl, rfl⟩, rfl⟩
        refine ⟨[], none, ?_, (mergeFrom_nil _ _ _).2 rfl, rfl⟩
        rw [h1]; exact ⟨.stop, rfl⟩
      · rintro ⟨ls, msg, h, ht, hs⟩
        rw [h1] at h
        unfold MergeEnd at h
        cases msg <;> cases x <;> simp only at h
        · obtain ⟨h, hr⟩ := h
          cases h with
          | more _ _ _ _ h => exact (Line_nil hN h).elim
          | stop =>
            have := (mergeFrom_nil _ _ _).1 ht
            refine ⟨⟨this.symm, rfl⟩, ?_⟩
            rw [hs, hr, ← h1]
        · obtain ⟨_, _, h, _⟩ := h
          cases h with
          | stop _ _ h => exact (Line_nil hN h).elim
          | more _ _ _ _ _ h => exact (Line_nil hN h).elim
    | ok p =>
      obtain ⟨l, s1⟩ := p
      have hlt := Stream.readLine_lt s s1 l hN hr
      have hline := readLine_Line _ _ _ hr hN
      have hN1 : 2 ≤ s1.bufsz := by rw [hlt.bufsz]; exact hN
      have hf1 : s1.fin = .eof := by rw [hlt.fin]; exact hf
      have hs1 : ∀ r, ({ s1 with rest := r } : Stream) = { s with rest := r } := by
        intro r; rw [Stream.mk.injEq]; exact ⟨rfl, hlt.fin, hlt.bufsz⟩
      have hs2 : ∀ r, ({ rest := r, fin := s1.fin, bufsz := s.bufsz } : Stream) = { s with rest := r } := by
        intro r; rw [Stream.mk.injEq]; exact ⟨rfl, hlt.fin, rfl⟩
      have key : ∀ o', MergeStep o l o' → l ≠ b!" " →
          (∀ o'', MergeStep o l o'' → o'' = o') →
          (mergeTagRun o' s1 = .ok ((t, x), s') ↔
            ∃ ls msg, MergeEnd s.bufsz s.rest ls msg x s'.rest ∧ MergeFrom o ls msg t ∧
              s' = { s with rest := s'.rest }) := by
        intro o' hstep hne huniq
        rw [ih s1 hlt o' hN1 hf1, hlt.bufsz]
        constructor
        · rintro ⟨ls, msg, h1, h2, h3⟩
          exact ⟨l :: ls, msg, (mergeEnd_cons hN hline hne _ _ _).2 ⟨ls, rfl, h1⟩,
            (mergeFrom_cons _ _ _ _ _).2 ⟨o', hstep, h2⟩, h3.trans (hs2 _)⟩
        · rintro ⟨ls, msg, h1, h2, h3⟩
          obtain ⟨ls, rfl, h5⟩ := (mergeEnd_cons hN hline hne _ _ _).1 h1
          obtain ⟨o'', h4, h6⟩ := (mergeFrom_cons _ _ _ _ _).1 h2
          rw [huniq o'' h4] at h6
          exact ⟨ls, msg, h5, h6, h3.trans (hs2 _).symm⟩
      have fail : (∀ o', ¬ MergeStep o l o') → l ≠ b!" " →
          ¬ ∃ ls msg, MergeEnd s.bufsz s.rest ls msg x s'.rest ∧ MergeFrom o ls msg t ∧
              s' = { s with rest := s'.rest } := by
        rintro hno hne ⟨ls, msg, h1, h2, h3⟩
        obtain ⟨ls, rfl, h1⟩ := (mergeEnd_cons hN hline hne _ _ _).1 h1
        obtain ⟨o'', h4, h2⟩ := (mergeFrom_cons _ _ _ _ _).1 h2
        exact hno _ h4
      simp only [hasPrefix_iff']
      unfold MergeStep at key fail
      split
      · rename_i h
        rw [sliceFrom_prefix h 6 rfl]
        simp only [h, if_true] at key
        exact key _ rfl (by rintro rfl; revert h; decide) (fun _ h => h)
      split
      · rename_i h0 h
        rw [sliceFrom_prefix h 5 rfl]
        simp only [h0, if_false, h, if_true] at key
        exact key _ rfl (by rintro rfl; revert h; decide) (fun _ h => h)
      split
      · rename_i h0 h1 h
        have hne : l ≠ b!" " := by rintro rfl; revert h; decide
        have hsl : sliceFrom l 1 = .ok (l.drop 1) := by
          obtain ⟨y, rfl⟩ := h
          rfl
        rw [hsl]
        simp only [h0, if_false, h1, h, if_true] at key fail
        simp only [Res.bind_ok]
        cases hp : parsePersonInfo (l.drop 1) with
        | panic => exact absurd hp (parsePersonInfo_ne_panic _)
        | err e =>
          constructor
          · intro h; simp at h
          · intro h
            refine absurd h (fail ?_ hne)
            rintro _ ⟨p, hp', _⟩
            rw [(parsePerson_iff _ _).2 hp'] at hp
            cases hp
        | ok p =>
          have hp' := (parsePerson_iff _ _).1 hp
          refine key _ ⟨p, hp', rfl⟩ hne ?_
          rintro _ ⟨q, hq, rfl⟩
          rw [person_unique hp' hq]
      split
      · rename_i h0 h1 h2 hl
        subst hl
        constructor
        · intro h
          obtain ⟨⟨⟨msg, l'⟩, s2⟩, h3, h⟩ := Res.bind_eq_ok.1 h
          simp only [Res.ok.injEq, Prod.mk.injEq] at h
          obtain ⟨⟨rfl, rfl⟩, rfl⟩ := h
          obtain ⟨ms, r, h4, h5, h6, h7⟩ := (mergeMsgRun_iff _ _ _ _ _ hN1).1 h3
          rw [hlt.bufsz] at h4 h5
          refine ⟨[], some ms, ⟨s1.rest, r, .stop _ _ hline, h4, h5⟩, (mergeFrom_nil _ _ _).2 ?_,
            h7.trans (hs1 _)⟩
          simp [h6]
        · rintro ⟨ls, msg, h3, h4, h5⟩
          unfold MergeEnd at h3
          generalize hb : s.rest = b at h3 hline
          cases msg <;> cases x <;> simp only at h3
          · obtain ⟨h, _⟩ := h3
            cases h with
            | stop => exact (Line_nil hN hline).elim
            | more _ _ _ _ h hne => exact absurd (Line_unique hN hline h).1.symm hne
          · obtain ⟨r1, r2, h6, h7, h8⟩ := h3
            cases h6 with
            | more _ _ _ _ _ h hne => exact absurd (Line_unique hN hline h).1.symm hne
            | stop _ _ h =>
              obtain ⟨_, rfl⟩ := Line_unique hN hline h
              rename_i ms l' _
              have h9 := (mergeMsgRun_iff [] (unlines ms) l' s1 s' hN1).2
                ⟨ms, r2, by rw [hlt.bufsz]; exact h7, by rw [hlt.bufsz]; exact h8, rfl, h5.trans (hs1 _).symm⟩
              rw [h9]
              have := (mergeFrom_nil _ _ _).1 h4
              rw [this]
              rfl
      · rename_i h0 h1 h2 hl
        simp only [h0, if_false, h1, h2] at key
        exact key _ rfl hl (fun _ h => h)

theorem mergeMeans_iff (x : Bytes) (c : Cid) (hx : RefLink x (.cid c)) (ls : List Bytes)
    (msg : Option (List Bytes)) (t : Tag) :
    MergeFrom { Tag.zero with object := .cid c } ls msg t ↔ MergeMeans (x, ls, msg) t := by
  have hm : (msg.map unlines).getD [] = unlines (msg.getD []) := by cases msg <;> rfl
  constructor
  · rintro ⟨a, b, c, d, e⟩
    refine ⟨by rw [a]; exact hx, b, c, d, ?_⟩
    rw [e]; exact hm
  · rintro ⟨a, b, c, d, e⟩
    refine ⟨?_, b, c, d, ?_⟩
    · obtain ⟨s1, ⟨h1, _⟩, h2⟩ := a
      obtain ⟨s2, ⟨h3, _⟩, h4⟩ := hx
      have := (hexDecode_iff _ _).2 h1
      rw [(hexDecode_iff _ _).2 h3] at this
      simp only [Res.ok.injEq] at this
      show t.object = .cid _
      rw [h2, h4, this]
    · rw [e]; exact hm.symm

theorem readMergeTag_iff (x : Bytes) (t : Tag) (l : Option Bytes) (s s' : Stream) (hN : 2 ≤ s.bufsz)
    (hf : s.fin = .eof) :
    (hexDecode x >>= fun sha => readMergeTag sha s) = .ok ((t, l), s') ↔
      ∃ ls msg, MergeEnd s.bufsz s.rest ls msg l s'.rest ∧ MergeMeans (x, ls, msg) t ∧
        s' = { s with rest := s'.rest } := by
  simp only [readMergeTag_eq]
  rw [ref_bind_iff]
  constructor
  · rintro ⟨c, hc, h⟩
    obtain ⟨ls, msg, h1, h2, h3⟩ := (mergeTagRun_iff _ _ _ _ _ hN hf).1 h
    exact ⟨ls, msg, h1, (mergeMeans_iff x c hc _ _ _).1 h2, h3⟩
  · rintro ⟨ls, msg, h1, h2, h3⟩
    obtain ⟨c, hc⟩ := refLink_isCid h2.object
    have hx : RefLink x (.cid c) := hc ▸ h2.object
    exact ⟨c, hx, (mergeTagRun_iff _ _ _ _ _ hN hf).2 ⟨ls, msg, h1, (mergeMeans_iff x c hx _ _ _).2 h2, h3⟩⟩

/-! ## commits -/

/-- The value of the last of `xs`, or `d`. -/
def LastOr {α β : Type} (R : α → β → Prop) (xs : List α) (d v : Option β) : Prop :=
  ∃ ys, Pairs R xs ys ∧ v = ys.getLast?.or d

/-- The values of `xs` appended to `d`. -/
def Appended {α β : Type} (R : α → β → Prop) (xs : List α) (d v : List β) : Prop :=
  ∃ ys, Pairs R xs ys ∧ v = d ++ ys

theorem lastOr_nil {α β : Type} (R : α → β → Prop) (d v : Option β) : LastOr R [] d v ↔ v = d := by
  constructor
  · rintro ⟨ys, h, hv⟩
    cases ys with
    | nil => simpa using hv
    | cons _ _ => exact h.elim
  · rintro rfl; exact ⟨[], trivial, by simp⟩

theorem getLast?_cons_or {β : Type} (y : β) (ys : List β) (d : Option β) :
    (y :: ys).getLast?.or d = ys.getLast?.or (some y) := by
  cases h : ys.getLast? <;> simp [List.getLast?_cons, h]

theorem lastOr_cons {α β : Type} (R : α → β → Prop) (x : α) (xs : List α) (d v : Option β) :
    LastOr R (x :: xs) d v ↔ ∃ y, R x y ∧ LastOr R xs (some y) v := by
  constructor
  · rintro ⟨ys, h, hv⟩
    cases ys with
    | nil => exact h.elim
    | cons y ys => exact ⟨y, h.1, ys, h.2, by rw [hv, getLast?_cons_or]⟩
  · rintro ⟨y, hy, ys, h, hv⟩
    exact ⟨y :: ys, ⟨hy, h⟩, by rw [hv, getLast?_cons_or]⟩

theorem appended_nil {α β : Type} (R : α → β → Prop) (d v : List β) : Appended R [] d v ↔ v = d := by
  constructor
  · rintro ⟨ys, h, hv⟩
    cases ys with
    | nil => simpa using hv
    | cons _ _ => exact h.elim
  · rintro rfl; exact ⟨[], trivial, by simp⟩

theorem appended_cons {α β : Type} (R : α → β → Prop) (x : α) (xs : List α) (d v : List β) :
    Appended R (x :: xs) d v ↔ ∃ y, R x y ∧ Appended R xs (d ++ [y]) v := by
  constructor
  · rintro ⟨ys, h, hv⟩
    cases ys with
    | nil => exact h.elim
    | cons y ys => exact ⟨y, h.1, ys, h.2, by rw [hv]; simp⟩
  · rintro ⟨y, hy, ys, h, hv⟩
    exact ⟨y :: ys, ⟨hy, h⟩, by rw [hv]; simp⟩

/-- The lines that begin with none of the known words. -/
def unknownLines (ls : List Bytes) : List Bytes := ls.filter fun l => knownHeaders.all fun w => !w.isPrefixOf l

/-- What blocks and message mean for a commit that has been read in part. -/
structure CommitFrom (c : Commit) (bs : List Block) (m : Option Bytes) (r : Commit) : Prop where
  tree : LastValue RefLink (behind b!"tree " (plainLines bs)) c.tree r.tree
  parents : Appended RefLink (behind b!"parent " (plainLines bs)) c.parents r.parents
  author : LastOr PersonRead (linesWith b!"author " (plainLines bs)) c.author r.author
  committer : LastOr PersonRead (linesWith b!"committer " (plainLines bs)) c.committer r.committer
  encoding : r.encoding = (behind b!"encoding " (plainLines bs)).getLast?.or c.encoding
  mergetag : Appended MergeMeans (mergeTags bs) c.mergetag r.mergetag
  sigOk : ∀ ls ∈ signatures bs, SigStart ls
  signature : r.signature = ((signatures bs).getLast?.map unlines).or c.signature
  other : r.other = c.other ++ unknownLines (plainLines bs)
  message : r.message = m.getD c.message

theorem commitMeans_iff (bs : List Block) (m : Option Bytes) (r : Commit) :
    CommitFrom Commit.zero bs m r ↔ CommitMeans bs m r := by
  constructor
  · rintro ⟨a, ⟨ys, b, b'⟩, ⟨ps, c, c'⟩, ⟨qs, d, d'⟩, e, ⟨ts, f, f'⟩, g, h, i, j⟩
    refine ⟨a, ?_, ⟨ps, c, ?_⟩, ⟨qs, d, ?_⟩, ?_, ?_, ⟨g, ?_⟩, ?_, j⟩
    · rw [b']; exact b
    · rw [c']; exact Option.or_none
    · rw [d']; exact Option.or_none
    · rw [e]; exact Option.or_none
    · rw [f']; exact f
    · rw [h]; exact Option.or_none
    · rw [i]; rfl
  · rintro ⟨a, b, ⟨ps, c, c'⟩, ⟨qs, d, d'⟩, e, f, ⟨g, h⟩, i, j⟩
    refine ⟨a, ⟨_, b, rfl⟩, ⟨ps, c, ?_⟩, ⟨qs, d, ?_⟩, ?_, ⟨_, f, rfl⟩, g, ?_, ?_, j⟩
    · rw [c']; exact Option.or_none.symm
    · rw [d']; exact Option.or_none.symm
    · rw [e]; exact Option.or_none.symm
    · rw [h]; exact Option.or_none.symm
    · rw [i]; rfl

theorem commitFrom_nil (c r : Commit) (m : Option Bytes) :
    CommitFrom c [] m r ↔ r = { c with message := m.getD c.message } := by
  obtain ⟨r1, r2, r3, r4, r5, r6, r7, r8, r9⟩ := r
  constructor
  · rintro ⟨h1, h2, h3, h4, h5, h6, _, h7, h8, h9⟩
    replace h1 := (lastValue_nil _ _ _).1 h1
    replace h2 := (appended_nil _ _ _).1 h2
    replace h3 := (lastOr_nil _ _ _).1 h3
    replace h4 := (lastOr_nil _ _ _).1 h4
    replace h6 := (appended_nil _ _ _).1 h6
    simp [behind, linesWith, plainLines, signatures, unknownLines] at h1 h2 h3 h4 h5 h6 h7 h8 h9
    subst h1 h2 h3 h4 h5 h6 h7 h8 h9
    rfl
  · intro h
    rw [Commit.mk.injEq] at h
    obtain ⟨rfl, rfl, rfl, rfl, rfl, rfl, rfl, rfl, rfl⟩ := h
    exact ⟨(lastValue_nil _ _ _).2 rfl, (appended_nil _ _ _).2 rfl, (lastOr_nil _ _ _).2 rfl,
      (lastOr_nil _ _ _).2 rfl, rfl, (appended_nil _ _ _).2 rfl, by simp [signatures], rfl,
      by simp [unknownLines, plainLines], rfl⟩

/-- One header line. -/
def LineStep (c : Commit) (l : Bytes) (c' : Commit) : Prop :=
  if b!"tree " <+: l then ∃ y, RefLink (l.drop 5) y ∧ c' = { c with tree := y }
  else if b!"parent " <+: l then ∃ y, RefLink (l.drop 7) y ∧ c' = { c with parents := c.parents ++ [y] }
  else if b!"author " <+: l then ∃ p, PersonRead l p ∧ c' = { c with author := some p }
  else if b!"committer " <+: l then ∃ p, PersonRead l p ∧ c' = { c with committer := some p }
  else if b!"encoding " <+: l then c' = { c with encoding := some (l.drop 9) }
  else c' = { c with other := c.other ++ [l] }

theorem unknown_neg {l : Bytes} (ls : List Bytes) (h : ∃ w ∈ knownHeaders, w <+: l) :
    unknownLines (l :: ls) = unknownLines ls := by
  obtain ⟨w, hw, hl⟩ := h
  unfold unknownLines
  rw [List.filter_cons, if_neg]
  simp only [List.all_eq_true, Bool.not_eq_true']
  intro hall
  have := hall w hw
  rw [List.isPrefixOf_iff_prefix.2 hl] at this
  cases this

theorem unknown_pos {l : Bytes} (ls : List Bytes) (h : ∀ w ∈ knownHeaders, ¬ w <+: l) :
    unknownLines (l :: ls) = l :: unknownLines ls := by
  unfold unknownLines
  rw [List.filter_cons, if_pos]
  simp only [List.all_eq_true, Bool.not_eq_true']
  intro w hw
  exact Bool.eq_false_iff.2 (fun h' => h w hw (List.isPrefixOf_iff_prefix.1 h'))

theorem commitFrom_line (c : Commit) (l : Bytes) (bs : List Block) (m : Option Bytes) (r : Commit)
    (hm : ¬ b!"mergetag object " <+: l) (hg : ¬ b!"gpgsig " <+: l) :
    CommitFrom c (.line l :: bs) m r ↔ ∃ c', LineStep c l c' ∧ CommitFrom c' bs m r := by
  have hp : plainLines (.line l :: bs) = l :: plainLines bs := rfl
  have hs : signatures (.line l :: bs) = signatures bs := rfl
  have ht : mergeTags (.line l :: bs) = mergeTags bs := rfl
  unfold LineStep
  split
  · rename_i h1
    have h2 : ¬ b!"parent " <+: l := prefix_excl h1 (by decide) (by decide)
    have h3 : ¬ b!"author " <+: l := prefix_excl h1 (by decide) (by decide)
    have h4 : ¬ b!"committer " <+: l := prefix_excl h1 (by decide) (by decide)
    have h5 : ¬ b!"encoding " <+: l := prefix_excl h1 (by decide) (by decide)
    have hu := unknown_neg (plainLines bs) ⟨_, by simp [knownHeaders], h1⟩
    constructor
    · rintro ⟨a1, a2, a3, a4, a5, a6, a7, a8, a9, a10⟩
      rw [hp, behind_pos _ h1, lastValue_cons] at a1
      rw [hp, behind_neg _ h2] at a2
      rw [hp, linesWith_neg _ h3] at a3
      rw [hp, linesWith_neg _ h4] at a4
      rw [hp, behind_neg _ h5] at a5
      rw [hp, hu] at a9
      obtain ⟨y, hy, a1⟩ := a1
      exact ⟨_, ⟨y, hy, rfl⟩, a1, a2, a3, a4, a5, a6, a7, a8, a9, a10⟩
    · rintro ⟨_, ⟨y, hy, rfl⟩, a1, a2, a3, a4, a5, a6, a7, a8, a9, a10⟩
      refine ⟨?_, ?_, ?_, ?_, ?_, a6, a7, a8, ?_, a10⟩
      · rw [hp, behind_pos _ h1, lastValue_cons]; exact ⟨y, hy, a1⟩
      · rw [hp, behind_neg _ h2]; exact a2
      · rw [hp, linesWith_neg _ h3]; exact a3
      · rw [hp, linesWith_neg _ h4]; exact a4
      · rw [hp, behind_neg _ h5]; exact a5
      · rw [hp, hu]; exact a9
  split
  · rename_i h1 h2
    have h3 : ¬ b!"author " <+: l := prefix_excl h2 (by decide) (by decide)
    have h4 : ¬ b!"committer " <+: l := prefix_excl h2 (by decide) (by decide)
    have h5 : ¬ b!"encoding " <+: l := prefix_excl h2 (by decide) (by decide)
    have hu := unknown_neg (plainLines bs) ⟨_, by simp [knownHeaders], h2⟩
    constructor
    · rintro ⟨a1, a2, a3, a4, a5, a6, a7, a8, a9, a10⟩
      rw [hp, behind_neg _ h1] at a1
      rw [hp, behind_pos _ h2, appended_cons] at a2
      rw [hp, linesWith_neg _ h3] at a3
      rw [hp, linesWith_neg _ h4] at a4
      rw [hp, behind_neg _ h5] at a5
      rw [hp, hu] at a9
      obtain ⟨y, hy, a2⟩ := a2
      exact ⟨_, ⟨y, hy, rfl⟩, a1, a2, a3, a4, a5, a6, a7, a8, a9, a10⟩
    · rintro ⟨_, ⟨y, hy, rfl⟩, a1, a2, a3, a4, a5, a6, a7, a8, a9, a10⟩
      refine ⟨?_, ?_, ?_, ?_, ?_, a6, a7, a8, ?_, a10⟩
      · rw [hp, behind_neg _ h1]; exact a1
      · rw [hp, behind_pos _ h2, appended_cons]; exact ⟨y, hy, a2⟩
      · rw [hp, linesWith_neg _ h3]; exact a3
      · rw [hp, linesWith_neg _ h4]; exact a4
      · rw [hp, behind_neg _ h5]; exact a5
      · rw [hp, hu]; exact a9
  split
  · rename_i h1 h2 h3
    have h4 : ¬ b!"committer " <+: l := prefix_excl h3 (by decide) (by decide)
    have h5 : ¬ b!"encoding " <+: l := prefix_excl h3 (by decide) (by decide)
    have hu := unknown_neg (plainLines bs) ⟨_, by simp [knownHeaders], h3⟩
    constructor
    · rintro ⟨a1, a2, a3, a4, a5, a6, a7, a8, a9, a10⟩
      rw [hp, behind_neg _ h1] at a1
      rw [hp, behind_neg _ h2] at a2
      rw [hp, linesWith_pos _ h3, lastOr_cons] at a3
      rw [hp, linesWith_neg _ h4] at a4
      rw [hp, behind_neg _ h5] at a5
      rw [hp, hu] at a9
      obtain ⟨y, hy, a3⟩ := a3
      exact ⟨_, ⟨y, hy, rfl⟩, a1, a2, a3, a4, a5, a6, a7, a8, a9, a10⟩
    · rintro ⟨_, ⟨y, hy, rfl⟩, a1, a2, a3, a4, a5, a6, a7, a8, a9, a10⟩
      refine ⟨?_, ?_, ?_, ?_, ?_, a6, a7, a8, ?_, a10⟩
      · rw [hp, behind_neg _ h1]; exact a1
      · rw [hp, behind_neg _ h2]; exact a2
      · rw [hp, linesWith_pos _ h3, lastOr_cons]; exact ⟨y, hy, a3⟩
      · rw [hp, linesWith_neg _ h4]; exact a4
      · rw [hp, behind_neg _ h5]; exact a5
      · rw [hp, hu]; exact a9
  split
  · rename_i h1 h2 h3 h4
    have h5 : ¬ b!"encoding " <+: l := prefix_excl h4 (by decide) (by decide)
    have hu := unknown_neg (plainLines bs) ⟨_, by simp [knownHeaders], h4⟩
    constructor
    · rintro ⟨a1, a2, a3, a4, a5, a6, a7, a8, a9, a10⟩
      rw [hp, behind_neg _ h1] at a1
      rw [hp, behind_neg _ h2] at a2
      rw [hp, linesWith_neg _ h3] at a3
      rw [hp, linesWith_pos _ h4, lastOr_cons] at a4
      rw [hp, behind_neg _ h5] at a5
      rw [hp, hu] at a9
      obtain ⟨y, hy, a4⟩ := a4
      exact ⟨_, ⟨y, hy, rfl⟩, a1, a2, a3, a4, a5, a6, a7, a8, a9, a10⟩
    · rintro ⟨_, ⟨y, hy, rfl⟩, a1, a2, a3, a4, a5, a6, a7, a8, a9, a10⟩
      refine ⟨?_, ?_, ?_, ?_, ?_, a6, a7, a8, ?_, a10⟩
      · rw [hp, behind_neg _ h1]; exact a1
      · rw [hp, behind_neg _ h2]; exact a2
      · rw [hp, linesWith_neg _ h3]; exact a3
      · rw [hp, linesWith_pos _ h4, lastOr_cons]; exact ⟨y, hy, a4⟩
      · rw [hp, behind_neg _ h5]; exact a5
      · rw [hp, hu]; exact a9
  split
  · rename_i h1 h2 h3 h4 h5
    have hu := unknown_neg (plainLines bs) ⟨_, by simp [knownHeaders], h5⟩
    constructor
    · rintro ⟨a1, a2, a3, a4, a5, a6, a7, a8, a9, a10⟩
      rw [hp, behind_neg _ h1] at a1
      rw [hp, behind_neg _ h2] at a2
      rw [hp, linesWith_neg _ h3] at a3
      rw [hp, linesWith_neg _ h4] at a4
      rw [hp, behind_pos _ h5, getLast?_cons_or] at a5
      rw [hp, hu] at a9
      exact ⟨_, rfl, a1, a2, a3, a4, a5, a6, a7, a8, a9, a10⟩
    · rintro ⟨_, rfl, a1, a2, a3, a4, a5, a6, a7, a8, a9, a10⟩
      refine ⟨?_, ?_, ?_, ?_, ?_, a6, a7, a8, ?_, a10⟩
      · rw [hp, behind_neg _ h1]; exact a1
      · rw [hp, behind_neg _ h2]; exact a2
      · rw [hp, linesWith_neg _ h3]; exact a3
      · rw [hp, linesWith_neg _ h4]; exact a4
      · rw [hp, behind_pos _ h5, getLast?_cons_or]; exact a5
      · rw [hp, hu]; exact a9
  · rename_i h1 h2 h3 h4 h5
    have hu : unknownLines (l :: plainLines bs) = l :: unknownLines (plainLines bs) := by
      refine unknown_pos _ ?_
      intro w hw
      simp only [knownHeaders, List.mem_cons, List.not_mem_nil, or_false] at hw
      rcases hw with rfl | rfl | rfl | rfl | rfl | rfl | rfl <;> assumption
    constructor
    · rintro ⟨a1, a2, a3, a4, a5, a6, a7, a8, a9, a10⟩
      rw [hp, behind_neg _ h1] at a1
      rw [hp, behind_neg _ h2] at a2
      rw [hp, linesWith_neg _ h3] at a3
      rw [hp, linesWith_neg _ h4] at a4
      rw [hp, behind_neg _ h5] at a5
      rw [hp, hu] at a9
      refine ⟨_, rfl, a1, a2, a3, a4, a5, a6, a7, a8, ?_, a10⟩
      rw [a9]; simp
    · rintro ⟨_, rfl, a1, a2, a3, a4, a5, a6, a7, a8, a9, a10⟩
      refine ⟨?_, ?_, ?_, ?_, ?_, a6, a7, a8, ?_, a10⟩
      · rw [hp, behind_neg _ h1]; exact a1
      · rw [hp, behind_neg _ h2]; exact a2
      · rw [hp, linesWith_neg _ h3]; exact a3
      · rw [hp, linesWith_neg _ h4]; exact a4
      · rw [hp, behind_neg _ h5]; exact a5
      · rw [hp, hu, a9]; simp

theorem commitFrom_sig (c : Commit) (ls : List Bytes) (bs : List Block) (m : Option Bytes) (r : Commit) :
    CommitFrom c (.sig ls :: bs) m r ↔
      SigStart ls ∧ CommitFrom { c with signature := some (unlines ls) } bs m r := by
  have hs : signatures (.sig ls :: bs) = ls :: signatures bs := rfl
  have hv : ∀ d, ((signatures (.sig ls :: bs)).getLast?.map unlines).or d =
      ((signatures bs).getLast?.map unlines).or (some (unlines ls)) := by
    intro d
    rw [hs]
    cases h : (signatures bs).getLast? <;> simp [List.getLast?_cons, h]
  constructor
  · rintro ⟨a1, a2, a3, a4, a5, a6, a7, a8, a9, a10⟩
    rw [hv] at a8
    rw [hs] at a7
    exact ⟨a7 ls (by simp), a1, a2, a3, a4, a5, a6, fun x hx => a7 x (by simp [hx]), a8, a9, a10⟩
  · rintro ⟨h, a1, a2, a3, a4, a5, a6, a7, a8, a9, a10⟩
    refine ⟨a1, a2, a3, a4, a5, a6, ?_, ?_, a9, a10⟩
    · rw [hs]
      intro x hx
      rcases List.mem_cons.1 hx with rfl | hx
      · exact h
      · exact a7 x hx
    · rw [hv]; exact a8

theorem commitFrom_merge (c : Commit) (x : Bytes) (ls : List Bytes) (msg : Option (List Bytes))
    (bs : List Block) (m : Option Bytes) (r : Commit) :
    CommitFrom c (.merge x ls msg :: bs) m r ↔
      ∃ t, MergeMeans (x, ls, msg) t ∧ CommitFrom { c with mergetag := c.mergetag ++ [t] } bs m r := by
  have ht : mergeTags (.merge x ls msg :: bs) = (x, ls, msg) :: mergeTags bs := rfl
  constructor
  · rintro ⟨a1, a2, a3, a4, a5, a6, a7, a8, a9, a10⟩
    rw [ht, appended_cons] at a6
    obtain ⟨t, h, a6⟩ := a6
    exact ⟨t, h, a1, a2, a3, a4, a5, a6, a7, a8, a9, a10⟩
  · rintro ⟨t, h, a1, a2, a3, a4, a5, a6, a7, a8, a9, a10⟩
    refine ⟨a1, a2, a3, a4, a5, ?_, a7, a8, a9, a10⟩
    rw [ht, appended_cons]; exact ⟨t, h, a6⟩

theorem commitLine_step (c c' : Commit) (l : Bytes) (s s' : Stream) (hN : 2 ≤ s.bufsz) (hl : l ≠ [])
    (hm : ¬ b!"mergetag object " <+: l) (hg : ¬ b!"gpgsig " <+: l) :
    commitLineRun c l s = .ok (c', s') ↔ LineStep c l c' ∧ s' = s := by
  rw [commitLineRun_eq c l s hN]
  unfold LineStep
  simp only [hasPrefix_iff']
  split
  · rename_i h
    rw [sliceFrom_prefix h 5 rfl]
    simp only [Res.bind_ok]
    rw [ref_bind_iff]
    constructor
    · rintro ⟨c, hc, h⟩
      simp only [Res.ok.injEq, Prod.mk.injEq] at h
      exact ⟨⟨_, hc, h.1.symm⟩, h.2.symm⟩
    · rintro ⟨⟨y, hy, rfl⟩, rfl⟩
      obtain ⟨c, rfl⟩ := refLink_isCid hy
      exact ⟨c, hy, rfl⟩
  split
  · rename_i h
    rw [sliceFrom_prefix h 7 rfl]
    simp only [Res.bind_ok]
    rw [ref_bind_iff]
    constructor
    · rintro ⟨c, hc, h⟩
      simp only [Res.ok.injEq, Prod.mk.injEq] at h
      exact ⟨⟨_, hc, h.1.symm⟩, h.2.symm⟩
    · rintro ⟨⟨y, hy, rfl⟩, rfl⟩
      obtain ⟨c, rfl⟩ := refLink_isCid hy
      exact ⟨c, hy, rfl⟩
  iterate 2
    split
    · constructor
      · intro h
        obtain ⟨p, h1, h⟩ := Res.bind_eq_ok.1 h
        simp only [Res.ok.injEq, Prod.mk.injEq] at h
        exact ⟨⟨p, (parsePerson_iff _ _).1 h1, h.1.symm⟩, h.2.symm⟩
      · rintro ⟨⟨p, hp, rfl⟩, rfl⟩
        rw [(parsePerson_iff _ _).2 hp]; rfl
  split
  · rename_i h
    rw [sliceFrom_prefix h 9 rfl]
    simp [eq_comm]
  · rw [if_neg (by simpa using hl)]
    simp [eq_comm]

theorem commitRun_done (c : Commit) (N : Nat) (hN : 2 ≤ N) : commitRun c ⟨[], .eof, N⟩ = .ok c := by
  rw [commitRun_eq _ _ hN]; rfl

theorem commitLine_blank (c : Commit) (r : Bytes) (N : Nat) (hN : 2 ≤ N) :
    commitLineRun c [] ⟨r, .eof, N⟩ = .ok ({ c with message := r }, ⟨[], .eof, N⟩) := by
  rw [commitLineRun_eq _ _ _ hN]
  rfl

theorem commitLine_gpg (c c' : Commit) (l : Bytes) (s s' : Stream) (hN : 2 ≤ s.bufsz)
    (hg : b!"gpgsig " <+: l) :
    commitLineRun c l s = .ok (c', s') ↔ ∃ g, decodeGpgSig s = .ok (g, s') ∧
      c' = { c with signature := some g } := by
  have h1 : ¬ b!"tree " <+: l := prefix_excl hg (by decide) (by decide)
  have h2 : ¬ b!"parent " <+: l := prefix_excl hg (by decide) (by decide)
  have h3 : ¬ b!"author " <+: l := prefix_excl hg (by decide) (by decide)
  have h4 : ¬ b!"committer " <+: l := prefix_excl hg (by decide) (by decide)
  have h5 : ¬ b!"encoding " <+: l := prefix_excl hg (by decide) (by decide)
  have h6 : ¬ b!"mergetag object " <+: l := prefix_excl hg (by decide) (by decide)
  rw [commitLineRun_eq c l s hN]
  simp only [hasPrefix_iff', h1, h2, h3, h4, h5, h6, hg, if_true, if_false]
  constructor
  · intro h
    obtain ⟨⟨g, s1⟩, h7, h⟩ := Res.bind_eq_ok.1 h
    simp only [Res.ok.injEq, Prod.mk.injEq] at h
    obtain ⟨rfl, rfl⟩ := h
    exact ⟨g, h7, rfl⟩
  · rintro ⟨g, h7, rfl⟩
    rw [h7]; rfl

theorem commitLine_merge (c : Commit) (x : Bytes) (s : Stream) (hN : 2 ≤ s.bufsz) :
    commitLineRun c (b!"mergetag object " ++ x) s =
      ((hexDecode x >>= fun sha => readMergeTag sha s) >>= fun p =>
        match p.1.2 with
        | none => .ok ({ c with mergetag := c.mergetag ++ [p.1.1] }, p.2)
        | some l => commitLineRun { c with mergetag := c.mergetag ++ [p.1.1] } l p.2) := by
  have hm : b!"mergetag object " <+: b!"mergetag object " ++ x := List.prefix_append _ _
  have h1 : ¬ b!"tree " <+: b!"mergetag object " ++ x := prefix_excl hm (by decide) (by decide)
  have h2 : ¬ b!"parent " <+: b!"mergetag object " ++ x := prefix_excl hm (by decide) (by decide)
  have h3 : ¬ b!"author " <+: b!"mergetag object " ++ x := prefix_excl hm (by decide) (by decide)
  have h4 : ¬ b!"committer " <+: b!"mergetag object " ++ x := prefix_excl hm (by decide) (by decide)
  have h5 : ¬ b!"encoding " <+: b!"mergetag object " ++ x := prefix_excl hm (by decide) (by decide)
  rw [commitLineRun_eq _ _ s hN]
  simp only [hasPrefix_iff', h1, h2, h3, h4, h5, hm, if_true, if_false]
  rw [sliceFrom_append _ _ 16 rfl]
  simp only [Res.bind_ok]
  cases hexDecode x with
  | panic => rfl
  | err e => rfl
  | ok sha =>
    simp only [Res.bind_ok]
    cases readMergeTag sha s with
    | panic => rfl
    | err e => rfl
    | ok p => rfl

theorem blocks_cases {N : Nat} {b l r : Bytes} {bs : List Block} {m : Option Bytes} (hN : 2 ≤ N)
    (hl : Line N b l r) (h : Blocks N b bs m) :
    (l = [] ∧ bs = [] ∧ m = some r) ∨
    (l ≠ [] ∧ ¬ b!"mergetag object " <+: l ∧ ¬ b!"gpgsig " <+: l ∧
      ∃ bs', bs = .line l :: bs' ∧ Blocks N r bs' m) ∨
    (b!"gpgsig " <+: l ∧ ∃ ls r' bs', bs = .sig ls :: bs' ∧ SigBody N r ls r' ∧ Blocks N r' bs' m) ∨
    (∃ x ls msg bs' r1 r2, l = b!"mergetag object " ++ x ∧ bs = .merge x ls (some msg) :: bs' ∧
      MergeHead N r ls r1 ∧ MergeMsg N r1 msg r2 ∧ Blocks N r2 bs' m) ∨
    (∃ x ls, l = b!"mergetag object " ++ x ∧ bs = [.merge x ls none] ∧ m = none ∧ MergeCut N r ls) := by
  cases h with
  | done => exact (Line_nil hN hl).elim
  | blank _ r' h =>
    obtain ⟨rfl, rfl⟩ := Line_unique hN hl h
    exact Or.inl ⟨rfl, rfl, rfl⟩
  | line _ l' r' bs' _ h hne hm hg hr =>
    obtain ⟨rfl, rfl⟩ := Line_unique hN hl h
    exact Or.inr (Or.inl ⟨hne, hm, hg, bs', rfl, hr⟩)
  | sig _ l' r' r'' ls bs' _ h hg hs hr =>
    obtain ⟨rfl, rfl⟩ := Line_unique hN hl h
    exact Or.inr (Or.inr (Or.inl ⟨hg, ls, r'', bs', rfl, hs, hr⟩))
  | merge _ x r' r1 r2 ls msg bs' _ h hh hm hr =>
    obtain ⟨rfl, rfl⟩ := Line_unique hN hl h
    exact Or.inr (Or.inr (Or.inr (Or.inl ⟨x, ls, msg, bs', r1, r2, rfl, rfl, hh, hm, hr⟩)))
  | cut _ x r' ls h hh =>
    obtain ⟨rfl, rfl⟩ := Line_unique hN hl h
    exact Or.inr (Or.inr (Or.inr (Or.inr ⟨x, ls, rfl, rfl, rfl, hh⟩)))

theorem mergetag_excl {l : Bytes} (h : b!"mergetag object " <+: l) : l ≠ [] ∧ ¬ b!"gpgsig " <+: l :=
  ⟨by rintro rfl; revert h; decide, prefix_excl h (by decide) (by decide)⟩

theorem gpgsig_excl {l : Bytes} (h : b!"gpgsig " <+: l) : l ≠ [] ∧ ¬ b!"mergetag object " <+: l :=
  ⟨by rintro rfl; revert h; decide, prefix_excl h (by decide) (by decide)⟩

theorem commitRun_iff (n : Nat) (c r : Commit) (b : Bytes) (N : Nat) (hn : b.length < n) (hN : 2 ≤ N) :
    commitRun c ⟨b, .eof, N⟩ = .ok r ↔ ∃ bs m, Blocks N b bs m ∧ CommitFrom c bs m r := by
  induction n generalizing c b with
  | zero => omega
  | succ n ih =>
    rw [commitRun_eq _ _ (by exact hN)]
    cases hr : Stream.readLine ⟨b, .eof, N⟩ with
    | panic => exact absurd hr (Stream.readLine_ne_panic _)
    | err e =>
      obtain ⟨h1, h2⟩ := (Stream.readLine_err _ e).1 hr
      simp only at h1 h2
      subst h1 h2
      simp only [Res.ok.injEq]
      constructor
      · rintro rfl
        exact ⟨[], none, .done, (commitFrom_nil _ _ _).2 rfl⟩
      · rintro ⟨bs, m, h, ht⟩
        cases h with
        | done => exact ((commitFrom_nil _ _ _).1 ht).symm
        | blank _ _ h => exact (Line_nil hN h).elim
        | line _ _ _ _ _ h => exact (Line_nil hN h).elim
        | sig _ _ _ _ _ _ _ h => exact (Line_nil hN h).elim
        | merge _ _ _ _ _ _ _ _ _ h => exact (Line_nil hN h).elim
        | cut _ _ _ _ h => exact (Line_nil hN h).elim
    | ok p =>
      obtain ⟨l, s1⟩ := p
      have hlt := Stream.readLine_lt _ s1 l (by exact hN) hr
      have hline := readLine_Line _ _ _ hr (by exact hN)
      obtain ⟨r1, f1, n1⟩ := s1
      have hf : f1 = .eof := hlt.fin
      have hb : n1 = N := hlt.bufsz
      subst hf hb
      simp only at hline
      have hlen := Line_lt hN hline
      simp only
      by_cases hm : b!"mergetag object " <+: l
      · obtain ⟨x, rfl⟩ := hm
        have hex := mergetag_excl (List.prefix_append b!"mergetag object " x)
        rw [commitLine_merge c x ⟨r1, .eof, n1⟩ hN]
        constructor
        · intro h
          obtain ⟨⟨c', s2⟩, h1, h⟩ := Res.bind_eq_ok.1 h
          obtain ⟨⟨⟨t, y⟩, s3⟩, h2, h3⟩ := Res.bind_eq_ok.1 h1
          obtain ⟨ls, msg, h4, h5, h6⟩ := (readMergeTag_iff x t y ⟨r1, .eof, n1⟩ s3 hN rfl).1 h2
          unfold MergeEnd at h4
          cases msg <;> cases y <;> simp only at h4
          · obtain ⟨h7, h8⟩ := h4
            simp only [Res.ok.injEq, Prod.mk.injEq] at h3
            obtain ⟨rfl, rfl⟩ := h3
            rw [h6, h8] at h
            simp only at h
            rw [commitRun_done _ _ hN] at h
            simp only [Res.ok.injEq] at h
            refine ⟨[.merge x ls none], none, .cut _ _ _ _ hline h7, ?_⟩
            rw [commitFrom_merge]
            exact ⟨t, h5, (commitFrom_nil _ _ _).2 h.symm⟩
          · rename_i msg l'
            obtain ⟨q1, q2, h7, h8, h9⟩ := h4
            have hq1 := mergeHead_lt hN h7
            have hq2 := mergeMsg_le hN h8
            have key : commitRun { c with mergetag := c.mergetag ++ [t] } ⟨q2, .eof, n1⟩ = .ok r := by
              rw [commitRun_eq _ _ (by exact hN), Line_readLine .eof hN h9]
              simp only
              simp only at h3
              rw [h6] at h3
              simp only at h3
              rw [h3]
              exact h
            obtain ⟨bs, m, h10, h11⟩ := (ih _ q2 (by omega)).1 key
            refine ⟨.merge x ls (some msg) :: bs, m, .merge _ _ _ _ _ _ _ _ _ hline h7 h8 h10, ?_⟩
            rw [commitFrom_merge]
            exact ⟨t, h5, h11⟩
        · rintro ⟨bs, m, h, ht⟩
          rcases blocks_cases hN hline h with ⟨h1, _⟩ | ⟨_, h1, _⟩ | ⟨h1, _⟩ |
            ⟨x', ls, msg, bs', q1, q2, h1, rfl, h7, h8, h10⟩ | ⟨x', ls, h1, rfl, rfl, h7⟩
          · exact absurd h1 hex.1
          · exact absurd (List.prefix_append _ _) h1
          · exact absurd h1 hex.2
          · obtain rfl := List.append_cancel_left h1
            obtain ⟨t, h5, h11⟩ := (commitFrom_merge _ _ _ _ _ _ _).1 ht
            have hq1 := mergeHead_lt hN h7
            have hq2 := mergeMsg_le hN h8
            obtain ⟨l', r', h9⟩ : ∃ l' r', Line n1 q2 l' r' := by
              clear ht h11 h10 hq1 hq2 h7 h h5
              induction h8 with
              | stop b l r h => exact ⟨l, r, h⟩
              | more _ _ _ _ _ _ _ _ ih => exact ih
            have h2 := (readMergeTag_iff x t (some l') ⟨r1, .eof, n1⟩ ⟨r', .eof, n1⟩ hN rfl).2
              ⟨ls, some msg, ⟨q1, q2, h7, h8, h9⟩, h5, rfl⟩
            rw [h2]
            have key := (ih _ q2 (by omega)).2 ⟨bs', m, h10, h11⟩
            rw [commitRun_eq _ _ (by exact hN), Line_readLine .eof hN h9] at key
            exact key
          · obtain rfl := List.append_cancel_left h1
            obtain ⟨t, h5, h11⟩ := (commitFrom_merge _ _ _ _ _ _ _).1 ht
            have h2 := (readMergeTag_iff x t none ⟨r1, .eof, n1⟩ ⟨[], .eof, n1⟩ hN rfl).2
              ⟨ls, none, ⟨h7, rfl⟩, h5, rfl⟩
            rw [h2]
            simp only [Res.bind_ok]
            rw [commitRun_done _ _ hN]
            rw [(commitFrom_nil _ _ _).1 h11]
            rfl
      by_cases hg : b!"gpgsig " <+: l
      · have hex := gpgsig_excl hg
        constructor
        · intro h
          obtain ⟨⟨c', s2⟩, h1, h⟩ := Res.bind_eq_ok.1 h
          obtain ⟨g, h2, rfl⟩ := (commitLine_gpg _ _ _ _ _ (by exact hN) hg).1 h1
          obtain ⟨ls, h3, h4, rfl, h6⟩ := (gpgSig_iff _ _ _ (by exact hN)).1 h2
          simp only at h3 h6 h
          have := sigBody_lt hN h3
          rw [h6] at h
          obtain ⟨bs, m, h10, h11⟩ := (ih _ s2.rest (by omega)).1 h
          refine ⟨.sig ls :: bs, m, .sig _ _ _ _ _ _ _ hline hg h3 h10, ?_⟩
          rw [commitFrom_sig]
          exact ⟨h4, h11⟩
        · rintro ⟨bs, m, h, ht⟩
          rcases blocks_cases hN hline h with ⟨h1, _⟩ | ⟨_, _, h1, _⟩ | ⟨_, ls, r', bs', rfl, h3, h10⟩ |
            ⟨x', ls, msg, bs', q1, q2, h1, _⟩ | ⟨x', ls, h1, _⟩
          · exact absurd h1 hex.1
          · exact absurd hg h1
          · obtain ⟨h4, h11⟩ := (commitFrom_sig _ _ _ _ _).1 ht
            have := sigBody_lt hN h3
            have h2 := (gpgSig_iff (unlines ls) ⟨r1, .eof, n1⟩ ⟨r', .eof, n1⟩ (by exact hN)).2
              ⟨ls, h3, h4, rfl, rfl⟩
            rw [(commitLine_gpg _ _ _ _ _ (by exact hN) hg).2 ⟨_, h2, rfl⟩]
            exact (ih _ r' (by omega)).2 ⟨bs', m, h10, h11⟩
          · exact absurd (h1 ▸ List.prefix_append _ _) hm
          · exact absurd (h1 ▸ List.prefix_append _ _) hm
      by_cases hl : l = []
      · subst hl
        rw [commitLine_blank _ _ _ hN]
        simp only [Res.bind_ok]
        rw [commitRun_done _ _ hN]
        simp only [Res.ok.injEq]
        constructor
        · rintro rfl
          exact ⟨[], some r1, .blank _ _ hline, (commitFrom_nil _ _ _).2 rfl⟩
        · rintro ⟨bs, m, h, ht⟩
          rcases blocks_cases hN hline h with ⟨_, rfl, rfl⟩ | ⟨h1, _⟩ | ⟨h1, _⟩ | ⟨_, _, _, _, _, _, h1, _⟩ |
            ⟨_, _, h1, _⟩
          · exact ((commitFrom_nil _ _ _).1 ht).symm
          · exact absurd rfl h1
          · exact absurd h1 hg
          · simp at h1
          · simp at h1
      · constructor
        · intro h
          obtain ⟨⟨c', s2⟩, h1, h⟩ := Res.bind_eq_ok.1 h
          obtain ⟨h2, rfl⟩ := (commitLine_step _ _ _ _ _ (by exact hN) hl hm hg).1 h1
          obtain ⟨bs, m, h10, h11⟩ := (ih _ r1 (by omega)).1 h
          refine ⟨.line l :: bs, m, .line _ _ _ _ _ hline hl hm hg h10, ?_⟩
          rw [commitFrom_line _ _ _ _ _ hm hg]
          exact ⟨c', h2, h11⟩
        · rintro ⟨bs, m, h, ht⟩
          rcases blocks_cases hN hline h with ⟨h1, _⟩ | ⟨_, _, _, bs', rfl, h10⟩ | ⟨h1, _⟩ |
            ⟨_, _, _, _, _, _, h1, _⟩ | ⟨_, _, h1, _⟩
          · exact absurd h1 hl
          · obtain ⟨c', h2, h11⟩ := (commitFrom_line _ _ _ _ _ hm hg).1 ht
            rw [(commitLine_step _ _ _ _ _ (by exact hN) hl hm hg).2 ⟨h2, rfl⟩]
            exact (ih _ r1 (by omega)).2 ⟨bs', m, h10, h11⟩
          · exact absurd h1 hg
          · exact absurd (h1 ▸ List.prefix_append _ _) hm
          · exact absurd (h1 ▸ List.prefix_append _ _) hm

end Verif
