import Verif.Props.Accept

/-!
# C13 Messages are preserved verbatim, for every accepted stream

`commit_message_verbatim` and `tag_message_verbatim` are about header blocks of a
given form. Here is the claim for every stream that is accepted at all: the message
is the end of the stream, and any other could stand there.
-/

namespace Verif.Props

open Verif Spec

/-- Whether a line begins with a space is to be seen from the first byte. -/
theorem line_space {N : Nat} {b l r : Bytes} (hN : 2 ≤ N) (h : Line N b l r) : l.head? = some SP ↔ b.head? = some SP := by
  cases h with
  | lf _ _ h hc hs => cases l <;> simp [LF, SP]
  | crlf _ _ h hs => cases l <;> simp [CR, SP]
  | last _ hne h hs => rfl
  | full _ _ h hc hs =>
    cases l with
    | nil => simp at hs; omega
    | cons a l => simp
  | fullCR _ _ h hs =>
    cases l with
    | nil => simp at hs; omega
    | cons a l => simp

/-- What follows a line, from some point on, does not matter to it. -/
theorem line_swap {N : Nat} {b l r p m : Bytes} (h : Line N b l r) (hr : r = p ++ m) (hp : p ≠ []) :
    ∃ q, b = q ++ (p ++ m) ∧ ∀ m', Line N (q ++ (p ++ m')) l (p ++ m') := by
  cases h with
  | lf _ _ h hc hs => subst hr; exact ⟨l ++ [LF], by simp, fun m' => by simpa using Line.lf l (p ++ m') h hc hs⟩
  | crlf _ _ h hs => subst hr; exact ⟨l ++ [CR, LF], by simp, fun m' => by simpa using Line.crlf l (p ++ m') h hs⟩
  | last _ hne h hs =>
    cases p with
    | nil => exact absurd rfl hp
    | cons a p => cases hr
  | full _ _ h hc hs => subst hr; exact ⟨l, rfl, fun m' => Line.full l (p ++ m') h hc hs⟩
  | fullCR _ _ h hs =>
    cases p with
    | nil => exact absurd rfl hp
    | cons a p =>
      simp only [List.cons_append, List.cons.injEq] at hr
      obtain ⟨rfl, rfl⟩ := hr
      exact ⟨l, rfl, fun m' => Line.fullCR l (p ++ m') h hs⟩

theorem blank_swap {N : Nat} {b r : Bytes} (hN : 2 ≤ N) (h : Line N b [] r) :
    ∃ q, b = q ++ r ∧ q.getLast? = some LF ∧ ∀ m', Line N (q ++ m') [] m' := by
  generalize hl : ([] : Bytes) = l at h
  cases h with
  | lf _ _ h hc hs => subst hl; exact ⟨[LF], rfl, rfl, fun m' => Line.lf [] m' h hc hs⟩
  | crlf _ _ h hs => subst hl; exact ⟨[CR, LF], rfl, rfl, fun m' => Line.crlf [] m' h hs⟩
  | last _ hne h hs => exact absurd hl.symm hne
  | full _ _ h hc hs => subst hl; simp at hs; omega
  | fullCR _ _ h hs => subst hl; simp at hs; omega

theorem last_append {q p : Bytes} (h : p.getLast? = some LF) : (q ++ p).getLast? = some LF := by
  rw [List.getLast?_append, h]
  rfl

theorem last_ne {p : Bytes} (h : p.getLast? = some LF) : p ≠ [] := by
  rintro rfl
  cases h

theorem head_swap {N : Nat} (hN : 2 ≤ N) {b : Bytes} {ls : List Bytes} {o : Option Bytes} (h : Head N b ls o) :
    ∀ m, o = some m → ∃ p, b = p ++ m ∧ p.getLast? = some LF ∧ ∀ m', Head N (p ++ m') ls (some m') := by
  induction h with
  | done => nofun
  | blank b r h =>
    rintro m ⟨⟩
    obtain ⟨q, h1, h2, h3⟩ := blank_swap hN h
    exact ⟨q, h1, h2, fun m' => Head.blank _ _ (h3 m')⟩
  | line b l r ls m h hne hr ih =>
    intro m hm
    obtain ⟨p, h1, h2, h3⟩ := ih m hm
    obtain ⟨q, h4, h5⟩ := line_swap h h1 (last_ne h2)
    refine ⟨q ++ p, by rw [h4, List.append_assoc], last_append h2, fun m' => ?_⟩
    rw [List.append_assoc]
    exact Head.line _ _ _ _ _ (h5 m') hne (h3 m')

theorem sigBody_swap {N : Nat} {b r : Bytes} {ls : List Bytes} (h : SigBody N b ls r) :
    ∀ p m, r = p ++ m → p ≠ [] → ∃ q, b = q ++ (p ++ m) ∧ ∀ m', SigBody N (q ++ (p ++ m')) ls (p ++ m') := by
  induction h with
  | stop b r h =>
    intro p m hr hp
    obtain ⟨q, h1, h2⟩ := line_swap h hr hp
    exact ⟨q, h1, fun m' => SigBody.stop _ _ (h2 m')⟩
  | more b l r r' ls h hne hr ih =>
    intro p m hr' hp
    obtain ⟨q, h1, h2⟩ := ih p m hr' hp
    obtain ⟨q', h3, h4⟩ := line_swap (p := q ++ p) (m := m) h (by rw [h1, List.append_assoc]) (by simp [hp])
    refine ⟨q' ++ q, by rw [h3]; simp, fun m' => ?_⟩
    have := SigBody.more _ _ _ _ _ (h4 m') hne (by simpa using h2 m')
    simpa using this

theorem mergeHead_swap {N : Nat} {b r : Bytes} {ls : List Bytes} (h : MergeHead N b ls r) :
    ∀ p m, r = p ++ m → p ≠ [] → ∃ q, b = q ++ (p ++ m) ∧ ∀ m', MergeHead N (q ++ (p ++ m')) ls (p ++ m') := by
  induction h with
  | stop b r h =>
    intro p m hr hp
    obtain ⟨q, h1, h2⟩ := line_swap h hr hp
    exact ⟨q, h1, fun m' => MergeHead.stop _ _ (h2 m')⟩
  | more b l r r' ls h hne hr ih =>
    intro p m hr' hp
    obtain ⟨q, h1, h2⟩ := ih p m hr' hp
    obtain ⟨q', h3, h4⟩ := line_swap (p := q ++ p) (m := m) h (by rw [h1, List.append_assoc]) (by simp [hp])
    refine ⟨q' ++ q, by rw [h3]; simp, fun m' => ?_⟩
    have := MergeHead.more _ _ _ _ _ (h4 m') hne (by simpa using h2 m')
    simpa using this

theorem mergeMsg_swap {N : Nat} (hN : 2 ≤ N) {b r : Bytes} {ls : List Bytes} (h : MergeMsg N b ls r) :
    ∀ p m, r = p ++ m → p ≠ [] → (∀ m', ∃ l r, Line N (p ++ m') l r) →
      ∃ q, b = q ++ (p ++ m) ∧ ∀ m', MergeMsg N (q ++ (p ++ m')) ls (p ++ m') := by
  induction h with
  | stop b l r h hne =>
    intro p m hr hp hl
    refine ⟨[], by simpa using hr, fun m' => ?_⟩
    obtain ⟨l', r', h'⟩ := hl m'
    refine MergeMsg.stop _ _ _ h' fun hs => hne ((line_space hN h).2 ?_)
    have := (line_space hN h').1 hs
    cases p with
    | nil => exact absurd rfl hp
    | cons a p => rw [hr]; simpa using this
  | more b l r r' ls h hsp hr ih =>
    intro p m hr' hp hl
    obtain ⟨q, h1, h2⟩ := ih p m hr' hp hl
    obtain ⟨q', h3, h4⟩ := line_swap (p := q ++ p) (m := m) h (by rw [h1, List.append_assoc]) (by simp [hp])
    refine ⟨q' ++ q, by rw [h3]; simp, fun m' => ?_⟩
    have := MergeMsg.more _ _ _ _ _ (h4 m') hsp (by simpa using h2 m')
    simpa using this

theorem blocks_first {N : Nat} {b : Bytes} {bs : List Block} {m : Bytes} (h : Blocks N b bs (some m)) : ∃ l r, Line N b l r := by
  cases h with
  | blank _ _ h => exact ⟨_, _, h⟩
  | line _ l r bs _ h => exact ⟨_, _, h⟩
  | sig _ l r r' ls bs _ h => exact ⟨_, _, h⟩
  | merge _ x r r1 r2 ls msg bs _ h => exact ⟨_, _, h⟩

theorem blocks_swap {N : Nat} (hN : 2 ≤ N) {b : Bytes} {bs : List Block} {o : Option Bytes} (h : Blocks N b bs o) :
    ∀ m, o = some m → ∃ p, b = p ++ m ∧ p.getLast? = some LF ∧ ∀ m', Blocks N (p ++ m') bs (some m') := by
  induction h with
  | done => nofun
  | blank b r h =>
    rintro m ⟨⟩
    obtain ⟨q, h1, h2, h3⟩ := blank_swap hN h
    exact ⟨q, h1, h2, fun m' => Blocks.blank _ _ (h3 m')⟩
  | line b l r bs m h hne hm hg hr ih =>
    intro m hm'
    obtain ⟨p, h1, h2, h3⟩ := ih m hm'
    obtain ⟨q, h4, h5⟩ := line_swap h h1 (last_ne h2)
    refine ⟨q ++ p, by rw [h4, List.append_assoc], last_append h2, fun m' => ?_⟩
    rw [List.append_assoc]
    exact Blocks.line _ _ _ _ _ (h5 m') hne hm hg (h3 m')
  | sig b l r r' ls bs m h hg hl hr ih =>
    intro m hm'
    obtain ⟨p, h1, h2, h3⟩ := ih m hm'
    obtain ⟨q, h4, h5⟩ := sigBody_swap hl p m h1 (last_ne h2)
    obtain ⟨q', h6, h7⟩ := line_swap (p := q ++ p) (m := m) h (by rw [h4, List.append_assoc]) (by simp [last_ne h2])
    refine ⟨q' ++ (q ++ p), by rw [h6]; simp, last_append (last_append h2), fun m' => ?_⟩
    have := Blocks.sig _ _ _ _ _ _ _ (h7 m') hg (by simpa using h5 m') (h3 m')
    simpa using this
  | merge b x r r1 r2 ls msg bs m h hh hl hr ih =>
    intro m hm'
    obtain ⟨p, h1, h2, h3⟩ := ih m hm'
    obtain ⟨q, h4, h5⟩ := mergeMsg_swap hN hl p m h1 (last_ne h2) fun m' => blocks_first (h3 m')
    obtain ⟨q', h6, h7⟩ := mergeHead_swap hh (q ++ p) m (by rw [h4, List.append_assoc]) (by simp [last_ne h2])
    obtain ⟨q'', h8, h9⟩ := line_swap (p := q' ++ (q ++ p)) (m := m) h (by rw [h6]; simp) (by simp [last_ne h2])
    refine ⟨q'' ++ (q' ++ (q ++ p)), by rw [h8]; simp, last_append (last_append (last_append h2)), fun m' => ?_⟩
    have := Blocks.merge _ _ _ _ _ _ _ _ _ (h9 m') (by simpa using h7 m') (by simpa using h5 m') (h3 m')
    simpa using this
  | cut => nofun

/-- Every stream that is read as a commit with a message ends with the message, after
a line end; and with any other bytes in its place it is read as the same commit with
these for the message. -/
theorem commit_message_any (s : Stream) (hN : 2 ≤ s.bufsz) (c : Commit) (h : parseObject s = .ok (.commit c))
    (hm : c.message ≠ []) :
    ∃ pre, s.rest = pre ++ c.message ∧ pre.getLast? = some LF ∧
      ∀ m, parseObject (σ := Stream) ⟨pre ++ m, s.fin, s.bufsz⟩ = .ok (.commit { c with message := m }) := by
  obtain ⟨hf, d, z, body, bs, m, hs, hr, hb, hc⟩ := (commit_accepts s hN c).1 h
  cases m with
  | none => exact absurd hc.message hm
  | some m =>
    obtain ⟨p, h1, h2, h3⟩ := blocks_swap hN hb m rfl
    have hmm : c.message = m := hc.message
    refine ⟨b!"commit " ++ d ++ NUL :: p, by rw [hr, h1, hmm]; simp, ?_, fun m' => ?_⟩
    · rw [List.append_cons]
      exact last_append h2
    · refine (commit_accepts ⟨b!"commit " ++ d ++ NUL :: p ++ m', s.fin, s.bufsz⟩ hN _).2 ⟨hf, d, z, p ++ m', bs, some m', hs, by simp, h3 m', ?_⟩
      exact ⟨hc.tree, hc.parents, hc.author, hc.committer, hc.encoding, hc.mergetag, hc.signature, hc.other, rfl⟩

/-- The same for tags. -/
theorem tag_message_any (s : Stream) (hN : 2 ≤ s.bufsz) (t : Tag) (h : parseObject s = .ok (.tag t))
    (hm : t.message ≠ []) :
    ∃ pre, s.rest = pre ++ t.message ∧ pre.getLast? = some LF ∧
      ∀ m, parseObject (σ := Stream) ⟨pre ++ m, s.fin, s.bufsz⟩ = .ok (.tag { t with message := m }) := by
  obtain ⟨hf, d, body, ls, m, hs, hr, hb, hc⟩ := (tag_accepts s hN t).1 h
  cases m with
  | none => exact absurd hc.message hm
  | some m =>
    obtain ⟨p, h1, h2, h3⟩ := head_swap hN hb m rfl
    have hmm : t.message = m := hc.message
    refine ⟨b!"tag " ++ d ++ NUL :: p, by rw [hr, h1, hmm]; simp, ?_, fun m' => ?_⟩
    · rw [List.append_cons]
      exact last_append h2
    · refine (tag_accepts ⟨b!"tag " ++ d ++ NUL :: p ++ m', s.fin, s.bufsz⟩ hN _).2 ⟨hf, d, p ++ m', ls, some m', hs, by simp, h3 m', ?_⟩
      exact ⟨hc.object, hc.typ, hc.tag, hc.tagger, rfl⟩

/-! Cases: a header block that git would not write, with CR, and a message with NUL and
blank lines. -/

example : parseObject (σ := Stream) ⟨b!"commit 0\x00junk\r\n\r\n\x00\n\nm\r\n", .eof, 4096⟩ =
    .ok (.commit ⟨.nil, [], b!"\x00\n\nm\r\n", none, none, none, none, [], [b!"junk"]⟩) := by decide +kernel

example : parseObject (σ := Stream) ⟨b!"tag x\x00junk\n\n\n", .eof, 16⟩ = .ok (.tag ⟨.nil, [], [], .zero, b!"\n"⟩) := by decide +kernel

end Verif.Props
