import Verif.Proofs.Accept
import Verif.Proofs.Parse

/-!
# Tags accepted by the decoder
-/

namespace Verif

open Spec

/-! ## lists of values -/

theorem lastValue_nil {α β : Type} (R : α → β → Prop) (d v : β) : LastValue R [] d v ↔ v = d := by
  constructor
  · rintro ⟨ys, h, hv⟩
    cases ys with
    | nil => simpa using hv
    | cons _ _ => exact h.elim
  · rintro rfl; exact ⟨[], trivial, rfl⟩

theorem getLast?_cons_getD {β : Type} (y : β) (ys : List β) (d : β) :
    (y :: ys).getLast?.getD d = ys.getLast?.getD y := by
  cases ys <;> simp [List.getLast?_cons]

theorem lastValue_cons {α β : Type} (R : α → β → Prop) (x : α) (xs : List α) (d v : β) :
    LastValue R (x :: xs) d v ↔ ∃ y, R x y ∧ LastValue R xs y v := by
  constructor
  · rintro ⟨ys, h, hv⟩
    cases ys with
    | nil => exact h.elim
    | cons y ys => exact ⟨y, h.1, ys, h.2, by rw [hv, getLast?_cons_getD]⟩
  · rintro ⟨y, hy, ys, h, hv⟩
    exact ⟨y :: ys, ⟨hy, h⟩, by rw [hv, getLast?_cons_getD]⟩

theorem linesWith_cons (w l : Bytes) (ls : List Bytes) :
    linesWith w (l :: ls) = if w <+: l then l :: linesWith w ls else linesWith w ls := by
  simp [linesWith, List.filter_cons]

theorem linesWith_pos {w l : Bytes} (ls : List Bytes) (h : w <+: l) :
    linesWith w (l :: ls) = l :: linesWith w ls := by rw [linesWith_cons, if_pos h]

theorem linesWith_neg {w l : Bytes} (ls : List Bytes) (h : ¬ w <+: l) :
    linesWith w (l :: ls) = linesWith w ls := by rw [linesWith_cons, if_neg h]

theorem behind_pos {w l : Bytes} (ls : List Bytes) (h : w <+: l) :
    behind w (l :: ls) = l.drop w.length :: behind w ls := by
  rw [behind, linesWith_pos _ h]; rfl

theorem behind_neg {w l : Bytes} (ls : List Bytes) (h : ¬ w <+: l) :
    behind w (l :: ls) = behind w ls := by
  rw [behind, linesWith_neg _ h]; rfl

theorem hasPrefix_iff' (l p : Bytes) : hasPrefix l p = true ↔ p <+: l := by
  unfold hasPrefix; exact List.isPrefixOf_iff_prefix

/-- A line has at most one of two prefixes when neither is a prefix of the other. -/
theorem prefix_excl {p q l : Bytes} (h : p <+: l) (h1 : ¬ p <+: q) (h2 : ¬ q <+: p) : ¬ q <+: l := by
  intro hq
  rcases List.prefix_or_prefix_of_prefix h hq with h | h
  · exact h1 h
  · exact h2 h

theorem sliceFrom_prefix {l p : Bytes} (h : p <+: l) (n : Nat) (hn : n = p.length) :
    sliceFrom l n = .ok (l.drop n) := by
  subst hn
  obtain ⟨x, rfl⟩ := h
  rw [sliceFrom_append _ _ _ rfl]; simp

/-! ## tags -/

/-- What header lines and message mean for a tag that has been read in part. -/
structure TagFrom (o : Tag) (ls : List Bytes) (m : Option Bytes) (t : Tag) : Prop where
  object : LastValue RefLink (behind b!"object " ls) o.object t.object
  typ : t.typ = (behind b!"type " ls).getLast?.getD o.typ
  tag : t.tag = (behind b!"tag " ls).getLast?.getD o.tag
  tagger : LastValue PersonRead (linesWith b!"tagger " ls) o.tagger t.tagger
  message : t.message = m.getD o.message

/-- One header line. -/
def TagStep (o : Tag) (l : Bytes) (o' : Tag) : Prop :=
  if b!"object " <+: l then ∃ y, RefLink (l.drop 7) y ∧ o' = { o with object := y }
  else if b!"tag " <+: l then o' = { o with tag := l.drop 4 }
  else if b!"tagger " <+: l then ∃ p, PersonRead l p ∧ o' = { o with tagger := p }
  else if b!"type " <+: l then o' = { o with typ := l.drop 5 }
  else o' = o

theorem tagFrom_cons (o : Tag) (l : Bytes) (ls : List Bytes) (m : Option Bytes) (t : Tag) :
    TagFrom o (l :: ls) m t ↔ ∃ o', TagStep o l o' ∧ TagFrom o' ls m t := by
  unfold TagStep
  split
  · rename_i h
    have h1 : ¬ b!"tag " <+: l := prefix_excl h (by decide) (by decide)
    have h2 : ¬ b!"tagger " <+: l := prefix_excl h (by decide) (by decide)
    have h3 : ¬ b!"type " <+: l := prefix_excl h (by decide) (by decide)
    constructor
    · rintro ⟨a, b, c, d, e⟩
      rw [behind_pos _ h, lastValue_cons] at a
      rw [behind_neg _ h3] at b
      rw [behind_neg _ h1] at c
      rw [linesWith_neg _ h2] at d
      obtain ⟨y, hy, a⟩ := a
      exact ⟨_, ⟨y, hy, rfl⟩, a, b, c, d, e⟩
    · rintro ⟨_, ⟨y, hy, rfl⟩, a, b, c, d, e⟩
      refine ⟨?_, ?_, ?_, ?_, e⟩
      · rw [behind_pos _ h, lastValue_cons]; exact ⟨y, hy, a⟩
      · rw [behind_neg _ h3]; exact b
      · rw [behind_neg _ h1]; exact c
      · rw [linesWith_neg _ h2]; exact d
  split
  · rename_i h0 h
    have h2 : ¬ b!"tagger " <+: l := prefix_excl h (by decide) (by decide)
    have h3 : ¬ b!"type " <+: l := prefix_excl h (by decide) (by decide)
    constructor
    · rintro ⟨a, b, c, d, e⟩
      rw [behind_neg _ h0] at a
      rw [behind_neg _ h3] at b
      rw [behind_pos _ h, getLast?_cons_getD] at c
      rw [linesWith_neg _ h2] at d
      exact ⟨_, rfl, a, b, c, d, e⟩
    · rintro ⟨_, rfl, a, b, c, d, e⟩
      refine ⟨?_, ?_, ?_, ?_, e⟩
      · rw [behind_neg _ h0]; exact a
      · rw [behind_neg _ h3]; exact b
      · rw [behind_pos _ h, getLast?_cons_getD]; exact c
      · rw [linesWith_neg _ h2]; exact d
  split
  · rename_i h0 h1 h
    have h3 : ¬ b!"type " <+: l := prefix_excl h (by decide) (by decide)
    constructor
    · rintro ⟨a, b, c, d, e⟩
      rw [behind_neg _ h0] at a
      rw [behind_neg _ h3] at b
      rw [behind_neg _ h1] at c
      rw [linesWith_pos _ h, lastValue_cons] at d
      obtain ⟨y, hy, d⟩ := d
      exact ⟨_, ⟨y, hy, rfl⟩, a, b, c, d, e⟩
    · rintro ⟨_, ⟨y, hy, rfl⟩, a, b, c, d, e⟩
      refine ⟨?_, ?_, ?_, ?_, e⟩
      · rw [behind_neg _ h0]; exact a
      · rw [behind_neg _ h3]; exact b
      · rw [behind_neg _ h1]; exact c
      · rw [linesWith_pos _ h, lastValue_cons]; exact ⟨y, hy, d⟩
  split
  · rename_i h0 h1 h2 h
    constructor
    · rintro ⟨a, b, c, d, e⟩
      rw [behind_neg _ h0] at a
      rw [behind_pos _ h, getLast?_cons_getD] at b
      rw [behind_neg _ h1] at c
      rw [linesWith_neg _ h2] at d
      exact ⟨_, rfl, a, b, c, d, e⟩
    · rintro ⟨_, rfl, a, b, c, d, e⟩
      refine ⟨?_, ?_, ?_, ?_, e⟩
      · rw [behind_neg _ h0]; exact a
      · rw [behind_pos _ h, getLast?_cons_getD]; exact b
      · rw [behind_neg _ h1]; exact c
      · rw [linesWith_neg _ h2]; exact d
  · rename_i h0 h1 h2 h3
    constructor
    · rintro ⟨a, b, c, d, e⟩
      rw [behind_neg _ h0] at a
      rw [behind_neg _ h3] at b
      rw [behind_neg _ h1] at c
      rw [linesWith_neg _ h2] at d
      exact ⟨_, rfl, a, b, c, d, e⟩
    · rintro ⟨_, rfl, a, b, c, d, e⟩
      refine ⟨?_, ?_, ?_, ?_, e⟩
      · rw [behind_neg _ h0]; exact a
      · rw [behind_neg _ h3]; exact b
      · rw [behind_neg _ h1]; exact c
      · rw [linesWith_neg _ h2]; exact d

theorem ref_bind_iff {β : Type} (x : Bytes) (f : Cid → Res β) (b : β) :
    (hexDecode x >>= fun sha => shaToCid sha >>= f) = .ok b ↔
      ∃ c, RefLink x (.cid c) ∧ f c = .ok b := by
  constructor
  · intro h
    obtain ⟨sha, h1, h⟩ := Res.bind_eq_ok.1 h
    obtain ⟨c, h2, h⟩ := Res.bind_eq_ok.1 h
    exact ⟨c, (ref_iff x c).1 (by rw [h1]; exact h2), h⟩
  · rintro ⟨c, h1, h2⟩
    obtain ⟨sha, h3, h4⟩ := Res.bind_eq_ok.1 ((ref_iff x c).2 h1)
    rw [h3, Res.bind_ok, h4, Res.bind_ok, h2]

theorem tagLine_step (o o' : Tag) (l : Bytes) (s s' : Stream) (hl : l ≠ []) :
    tagLine o l s = .ok (o', s') ↔ TagStep o l o' ∧ s' = s := by
  unfold tagLine TagStep
  simp only [hasPrefix_iff']
  split
  · rename_i h
    rw [sliceFrom_prefix h 7 rfl]
    simp only [Res.bind_ok]
    rw [ref_bind_iff]
    constructor
    · rintro ⟨c, hc, h⟩
      simp only [Res.ok.injEq, Prod.mk.injEq] at h
      exact ⟨⟨_, hc, h.1.symm⟩, h.2.symm⟩
    · rintro ⟨⟨y, hy, rfl⟩, rfl⟩
      obtain ⟨c, rfl⟩ := refLink_isCid hy
      exact ⟨c, hy, rfl⟩
  split
  · rename_i h
    rw [sliceFrom_prefix h 4 rfl]
    simp [eq_comm]
  split
  · constructor
    · intro h
      obtain ⟨p, h1, h⟩ := Res.bind_eq_ok.1 h
      simp only [Res.ok.injEq, Prod.mk.injEq] at h
      exact ⟨⟨p, (parsePerson_iff _ _).1 h1, h.1.symm⟩, h.2.symm⟩
    · rintro ⟨⟨p, hp, rfl⟩, rfl⟩
      rw [(parsePerson_iff _ _).2 hp]; rfl
  split
  · rename_i h
    rw [sliceFrom_prefix h 5 rfl]
    simp [eq_comm]
  · rw [if_neg (by simpa using hl)]
    simp [eq_comm]

theorem tagRun_done (o : Tag) (N : Nat) (hN : 2 ≤ N) : tagRun o ⟨[], .eof, N⟩ = .ok o := by
  rw [tagRun_eq _ _ hN]; rfl

theorem tagLine_blank (o : Tag) (r : Bytes) (N : Nat) :
    tagLine (σ := Stream) o [] ⟨r, .eof, N⟩ = .ok ({ o with message := r }, ⟨[], .eof, N⟩) := by
  rfl

theorem head_cases {N : Nat} {b l r : Bytes} {ls : List Bytes} {m : Option Bytes} (hN : 2 ≤ N)
    (hl : Line N b l r) (h : Head N b ls m) :
    (l = [] ∧ ls = [] ∧ m = some r) ∨ (l ≠ [] ∧ ∃ ls', ls = l :: ls' ∧ Head N r ls' m) := by
  cases h with
  | done => exact (Line_nil hN hl).elim
  | blank _ r' h =>
    obtain ⟨rfl, rfl⟩ := Line_unique hN hl h
    exact Or.inl ⟨rfl, rfl, rfl⟩
  | line _ l' r' ls' _ h hne hr =>
    obtain ⟨rfl, rfl⟩ := Line_unique hN hl h
    exact Or.inr ⟨hne, ls', rfl, hr⟩

theorem tagRun_iff (o t : Tag) (s : Stream) (hN : 2 ≤ s.bufsz) (hf : s.fin = .eof) :
    tagRun o s = .ok t ↔ ∃ ls m, Head s.bufsz s.rest ls m ∧ TagFrom o ls m t := by
  induction s using stream_induct generalizing o with
  | h s ih =>
    cases hr : Stream.readLine s with
    | panic => exact absurd hr (Stream.readLine_ne_panic s)
    | err e =>
      obtain ⟨h1, h2⟩ := (Stream.readLine_err s e).1 hr
      rw [hf] at h2
      subst h2
      rw [tagRun_eq o s hN, hr, h1]
      simp only [Res.ok.injEq]
      constructor
      · rintro rfl
        exact ⟨[], none, .done, (lastValue_nil _ _ _).2 rfl, rfl, rfl, (lastValue_nil _ _ _).2 rfl, rfl⟩
      · rintro ⟨ls, m, h, ht⟩
        cases h with
        | blank _ _ h => exact (Line_nil hN h).elim
        | line _ _ _ _ _ h => exact (Line_nil hN h).elim
        | done =>
          have h1 := (lastValue_nil _ _ _).1 ht.object
          have h2 := (lastValue_nil _ _ _).1 ht.tagger
          have h3 := ht.typ
          have h4 := ht.tag
          have h5 := ht.message
          obtain ⟨a, b, c, d, e⟩ := t
          obtain ⟨a', b', c', d', e'⟩ := o
          simp only [behind, linesWith, List.filter_nil, List.map_nil, List.getLast?_nil, Option.getD_none] at h1 h2 h3 h4 h5
          subst h1 h2 h3 h4 h5
          rfl
    | ok p =>
      obtain ⟨l, s1⟩ := p
      have hlt := Stream.readLine_lt s s1 l hN hr
      have hline := readLine_Line _ _ _ hr hN
      have hN1 : 2 ≤ s1.bufsz := by rw [hlt.bufsz]; exact hN
      have hf1 : s1.fin = .eof := by rw [hlt.fin]; exact hf
      rw [tagRun_eq o s hN, hr]
      simp only
      by_cases hl : l = []
      · subst hl
        obtain ⟨r1, f1, n1⟩ := s1
        simp only at hf1 hN1
        subst hf1
        rw [tagLine_blank]
        simp only [Res.bind_ok]
        rw [tagRun_done _ _ hN1]
        simp only [Res.ok.injEq]
        constructor
        · rintro rfl
          exact ⟨[], some r1, .blank _ _ hline, (lastValue_nil _ _ _).2 rfl, rfl, rfl,
            (lastValue_nil _ _ _).2 rfl, rfl⟩
        · rintro ⟨ls, m, h, ht⟩
          rcases head_cases hN hline h with ⟨_, rfl, rfl⟩ | ⟨hne, _⟩
          · have h1 := (lastValue_nil _ _ _).1 ht.object
            have h2 := (lastValue_nil _ _ _).1 ht.tagger
            have h3 := ht.typ
            have h4 := ht.tag
            have h5 := ht.message
            obtain ⟨a, b, c, d, e⟩ := t
            obtain ⟨a', b', c', d', e'⟩ := o
            simp only [behind, linesWith, List.filter_nil, List.map_nil, List.getLast?_nil, Option.getD_none,
              Option.getD_some] at h1 h2 h3 h4 h5
            subst h1 h2 h3 h4 h5
            rfl
          · exact absurd rfl hne
      · have key : ∀ o', tagRun o' s1 = .ok t ↔ ∃ ls m, Head s.bufsz s1.rest ls m ∧ TagFrom o' ls m t := by
          intro o'
          have := ih s1 hlt o' hN1 hf1
          rw [hlt.bufsz] at this
          exact this
        constructor
        · intro h
          obtain ⟨⟨o', s2⟩, h1, h4⟩ := Res.bind_eq_ok.1 h
          obtain ⟨hs, rfl⟩ := (tagLine_step _ _ _ _ _ hl).1 h1
          obtain ⟨ls, m, h2, h3⟩ := (key o').1 h4
          exact ⟨l :: ls, m, .line _ _ _ _ _ hline hl h2, (tagFrom_cons _ _ _ _ _).2 ⟨o', hs, h3⟩⟩
        · rintro ⟨ls, m, h, ht⟩
          rcases head_cases hN hline h with ⟨hl', _⟩ | ⟨_, ls', rfl, h5⟩
          · exact absurd hl' hl
          · obtain ⟨o', hs, ht⟩ := (tagFrom_cons _ _ _ _ _).1 ht
            rw [(tagLine_step _ _ _ _ _ hl).2 ⟨hs, rfl⟩]
            exact (key o').2 ⟨ls', m, h5, ht⟩

theorem tagMeans_iff (ls : List Bytes) (m : Option Bytes) (t : Tag) :
    TagFrom Tag.zero ls m t ↔ TagMeans ls m t :=
  ⟨fun ⟨a, b, c, d, e⟩ => ⟨a, b, c, d, e⟩, fun ⟨a, b, c, d, e⟩ => ⟨a, b, c, d, e⟩⟩

end Verif
