import Verif.Proofs.Fold
import Verif.Proofs.Parse
import Verif.Proofs.AcceptCommit
import Verif.Props.Long

/-!
# Long lines, exactly: C35

What the decoder makes of a commit or a tag with lines longer than its buffer is what
it would make of the same text with every long line folded, except that the message
is not folded. -/

namespace Verif.Props

open Verif Spec

/-- Every text has one folding. -/
theorem fold_exists (N : Nat) (hN : 2 ≤ N) (x : Bytes) : ∃ y, Folded N x y :=
  folded_exists' N hN _ x (Nat.lt_succ_self _)

theorem fold_unique {N : Nat} (hN : 2 ≤ N) {x y z : Bytes} (h : Folded N x y) (h' : Folded N x z) : y = z :=
  folded_unique' h hN z h'

theorem fold_short' {N : Nat} (hN : 2 ≤ N) : ∀ n, ∀ x : Bytes, x.length < n →
    (∀ l, l <:+: x → LF ∉ l → l.length < N) → Folded N x x := by
  intro n
  induction n with
  | zero => intro x hx; omega
  | succ n ih =>
    intro x hx h
    rcases fold_cases N hN x with ⟨h1, h2⟩ | ⟨a, r, rfl, h1, h2⟩ | ⟨a, r, rfl, h1, h2, h3⟩ |
      ⟨a, r, rfl, h1, h2⟩
    · exact .last h1 h2
    · refine .line h1 h2 (ih r (by simp at hx; omega) fun l hl => h l (hl.trans ?_))
      exact ⟨a ++ [LF], [], by simp⟩
    · have := h a ⟨[], r, by simp⟩ h1; omega
    · have := h (a ++ [CR]) ⟨[], r, by simp⟩ (by
        rw [List.mem_append]; exact fun h => h.elim h1 (by decide))
      simp at this; omega

theorem infix_line {a x l : Bytes} (h : l <:+: a ++ LF :: x) (hl : LF ∉ l) : l <:+: a ∨ l <:+: x := by
  induction a with
  | nil =>
    rcases List.infix_cons_iff.1 h with h | h
    · cases l with
      | nil => exact .inl (List.nil_infix)
      | cons b l =>
        obtain ⟨h1, _⟩ := List.cons_prefix_cons.1 h
        exact absurd (h1 ▸ List.mem_cons_self) hl
    · exact .inr h
  | cons b a ih =>
    rcases List.infix_cons_iff.1 (by simpa using h) with h | h
    · refine .inl (List.IsPrefix.isInfix ?_)
      have h' : l <+: (b :: a) ++ LF :: x := by simpa using h
      by_cases hlen : l.length ≤ (b :: a).length
      · exact List.prefix_of_prefix_length_le h' (List.prefix_append _ _) hlen
      · have : (b :: a) ++ [LF] <+: l :=
          List.prefix_of_prefix_length_le (l₃ := (b :: a) ++ LF :: x) ⟨x, by simp⟩ h' (by simp at hlen ⊢; omega)
        exact absurd (this.subset (by simp)) hl
    · exact (ih h).imp_left fun h => h.trans (List.infix_cons_iff.2 (.inr (List.infix_refl _)))

/-- A text is its own folding if and only if its lines are shorter than `N`. -/
theorem fold_short {N : Nat} (hN : 2 ≤ N) (x : Bytes) :
    Folded N x x ↔ ∀ l, l <:+: x → LF ∉ l → l.length < N := by
  refine ⟨?_, fold_short' hN _ x (Nat.lt_succ_self _)⟩
  suffices ∀ y, Folded N x y → x.length = y.length → ∀ l, l <:+: x → LF ∉ l → l.length < N from
    fun h => this x h rfl
  intro y h
  induction h with
  | last hl hn => intro _ l h _; have := h.length_le; omega
  | line hl hn h ih =>
    intro hlen l h1 h2
    rcases infix_line h1 h2 with h3 | h3
    · have := h3.length_le; omega
    · exact ih (by simpa using hlen) l h3 h2
  | cut hl hn hc h ih =>
    intro hlen
    have := (folded_sublist h).length_le
    simp at hlen; omega
  | cutCR hl hn h ih =>
    intro hlen
    have := (folded_sublist h).length_le
    simp at hlen this; omega

theorem both_commit {P : Bytes → Bytes → Prop} {a b : Res Commit} (h : Both (SameHead P) a b) :
    Both (fun (o o' : Obj) => ∃ (c : Commit) (m : Bytes), o = .commit c ∧ o' = .commit { c with message := m } ∧ P c.message m)
      (a >>= fun c => .ok (Obj.commit c)) (b >>= fun c => .ok (Obj.commit c)) := by
  refine h.bind fun c d hcd => ?_
  obtain ⟨m, rfl, hm⟩ := hcd
  exact .ok ⟨c, m, rfl, rfl, hm⟩

theorem both_tag {P : Bytes → Bytes → Prop} {a b : Res Tag} (h : Both (SameTagHead P) a b) :
    Both (fun (o o' : Obj) => ∃ (c : Tag) (m : Bytes), o = .tag c ∧ o' = .tag { c with message := m } ∧ P c.message m)
      (a >>= fun c => .ok (Obj.tag c)) (b >>= fun c => .ok (Obj.tag c)) := by
  refine h.bind fun c d hcd => ?_
  obtain ⟨m, rfl, hm⟩ := hcd
  exact .ok ⟨c, m, rfl, rfl, hm⟩

theorem readNum_delim (d r : Bytes) (e : Err) (N : Nat) (hd : NUL ∉ d) :
    readNum (σ := Stream) ⟨d ++ NUL :: r, e, N⟩ = (atoi d >>= fun n => .ok (n, ⟨r, e, N⟩)) := by
  simp [readNum, Stream.readString_delim _ _ _ _ _ hd, chop]

theorem both_split {Q : Obj → Obj → Prop} {A B : Res Obj} (h : Both Q A B) :
    (A = B ∧ ∀ o, A ≠ .ok o) ∨ ∃ o o', A = .ok o ∧ B = .ok o' ∧ Q o o' := by
  cases h with
  | ok h => exact .inr ⟨_, _, rfl, rfl, h⟩
  | err e => exact .inl ⟨rfl, by intro o h; cases h⟩
  | panic => exact .inl ⟨rfl, by intro o h; cases h⟩

/-- A commit read with a buffer of `N` bytes, and its folding read with a larger
buffer: the same error, or the same headers and the folded message. No line of the
folding is as long as the larger buffer, so it is read line by line. -/
theorem fold_commit (N M : Nat) (hN : 2 ≤ N) (hM : N < M) (d x y : Bytes) (e : Err) (hd : NUL ∉ d)
    (h : Folded N x y) :
    let A := parseObject (σ := Stream) ⟨b!"commit " ++ d ++ NUL :: x, e, N⟩
    let B := parseObject (σ := Stream) ⟨b!"commit " ++ d ++ NUL :: y, e, M⟩
    (A = B ∧ ∀ o, A ≠ .ok o) ∨
      ∃ c m, A = .ok (.commit c) ∧ B = .ok (.commit { c with message := m }) ∧ Folded N c.message m := by
  intro A B
  suffices hb : Both (fun o o' => ∃ c m, o = .commit c ∧ o' = .commit { c with message := m } ∧
      Folded N c.message m) A B by
    rcases both_split hb with h | ⟨o, o', h1, h2, c, m, rfl, rfl, hm⟩
    · exact .inl h
    · exact .inr ⟨c, m, h1, h2, hm⟩
  unfold A B
  have e1 : ∀ z, b!"commit " ++ d ++ NUL :: z = b!"commit" ++ SP :: (d ++ NUL :: z) := by
    intro z; simp
  rw [e1, e1, parse_commit, parse_commit]
  unfold decodeCommit
  rw [readNum_delim _ _ _ _ hd, readNum_delim _ _ _ _ hd]
  cases ha : atoi d with
  | err e' => exact .err e'
  | panic => exact .panic
  | ok n =>
    exact both_commit (ls_commitLoop (fold_sim N M hN hM) (x.length + 1) (y.length + 1) Commit.zero Commit.zero
      ⟨x, e, N⟩ ⟨y, e, M⟩ ⟨rfl, rfl, rfl, h⟩ ⟨[], rfl, .last (a := []) (by simp) (by show 0 < N; omega)⟩ (Nat.lt_succ_self _)
      (Nat.lt_succ_self _))

/-- The same of tags, whose size may be anything. -/
theorem fold_tag (N M : Nat) (hN : 2 ≤ N) (hM : N < M) (d x y : Bytes) (e : Err) (hd : NUL ∉ d)
    (h : Folded N x y) :
    let A := parseObject (σ := Stream) ⟨b!"tag " ++ d ++ NUL :: x, e, N⟩
    let B := parseObject (σ := Stream) ⟨b!"tag " ++ d ++ NUL :: y, e, M⟩
    (A = B ∧ ∀ o, A ≠ .ok o) ∨
      ∃ c m, A = .ok (.tag c) ∧ B = .ok (.tag { c with message := m }) ∧ Folded N c.message m := by
  intro A B
  suffices hb : Both (fun o o' => ∃ c m, o = .tag c ∧ o' = .tag { c with message := m } ∧
      Folded N c.message m) A B by
    rcases both_split hb with h | ⟨o, o', h1, h2, c, m, rfl, rfl, hm⟩
    · exact .inl h
    · exact .inr ⟨c, m, h1, h2, hm⟩
  unfold A B
  have e1 : ∀ z, b!"tag " ++ d ++ NUL :: z = b!"tag" ++ SP :: (d ++ NUL :: z) := by
    intro z; simp
  rw [e1, e1, parse_tag, parse_tag]
  unfold decodeTag
  simp only [reader_readString, Stream.readString_delim _ _ _ _ _ hd, Res.bind_ok]
  exact both_tag (ls_tagLoop (fold_sim N M hN hM) (x.length + 1) (y.length + 1) Tag.zero Tag.zero
    ⟨x, e, N⟩ ⟨y, e, M⟩ ⟨rfl, rfl, rfl, h⟩ ⟨[], rfl, .last (a := []) (by simp) (by show 0 < N; omega)⟩ (Nat.lt_succ_self _)
    (Nat.lt_succ_self _))

/-- If the message has only short lines, the two results are the same. -/
theorem fold_commit_short_message (N M : Nat) (hN : 2 ≤ N) (hM : N < M) (d x y : Bytes) (e : Err) (hd : NUL ∉ d)
    (h : Folded N x y)
    (hm : ∀ c, parseObject (σ := Stream) ⟨b!"commit " ++ d ++ NUL :: x, e, N⟩ = .ok (.commit c) →
      ∀ l, l <:+: c.message → LF ∉ l → l.length < N) :
    parseObject (σ := Stream) ⟨b!"commit " ++ d ++ NUL :: x, e, N⟩ =
      parseObject (σ := Stream) ⟨b!"commit " ++ d ++ NUL :: y, e, M⟩ := by
  rcases fold_commit N M hN hM d x y e hd h with h' | ⟨c, m, h1, h2, h3⟩
  · exact h'.1
  · rw [h1, h2, ← fold_unique hN ((fold_short hN _).2 (hm c h1)) h3]

/-- A line of one byte less than the buffer that ends in CR LF: the CR is left for the
next read, which gives an empty line. So such a header ends the headers, and what
follows is the message. -/
theorem crlf_line_ends_header {d : Bytes} (hd : SizeText d) (N : Nat) (hN : 4096 ≤ N) (a r : Bytes)
    (hlen : a.length + 1 = N) (hlf : LF ∉ a) (hk : ∀ p ∈ knownHeaders, ¬ p <+: a) :
    parseObject (σ := Stream) ⟨b!"commit " ++ d ++ NUL :: (a ++ CR :: LF :: r), .eof, N⟩ =
      .ok (.commit { noCommit with other := [a], message := r }) := by
  have hne : a ≠ [] := by rintro rfl; simp at hlen; omega
  have hN2 : 2 ≤ N := by omega
  rw [parse_commit_size hd, commitRun_fragment_cr _ _ _ _ _ hlen hN2 hlf, commitLine_other _ _ _ hN2 hne hk]
  simp only [Res.bind_ok]
  have hr : Stream.readLine ⟨CR :: LF :: r, .eof, N⟩ = .ok ([], ⟨r, .eof, N⟩) :=
    Stream.readLine_short_line (a := [CR]) r .eof (by decide) (by simp; omega)
  rw [commitRun_eq _ _ hN2, hr]
  simp only
  rw [commitLine_blank _ _ _ hN2]
  simp only [Res.bind_ok]
  rw [commitRun_eq _ _ hN2]
  rfl

/-- Folding at 4: a short line, a line broken twice, and a CR at the break. -/
example : Folded 4 b!"ab\nabcdefghij\nabc\r\nx" b!"ab\nabcd\nefgh\nij\nabc\r\n\r\nx" :=
  .line (a := b!"ab") (by decide) (by decide)
    (.cut (a := b!"abcd") (by decide) (by decide) (by decide)
      (.cut (a := b!"efgh") (by decide) (by decide) (by decide)
        (.line (a := b!"ij") (by decide) (by decide)
          (.cutCR (a := b!"abc") (by decide) (by decide)
            (.line (a := b!"\r") (by decide) (by decide) (.last (by decide) (by decide)))))))

/-- A header longer than the buffer, and its folding. -/
example : ∃ y, Folded 16 b!"x-one two three four\n\nmessage\n" y ∧
    parseObject (σ := Stream) ⟨b!"commit 0\x00" ++ y, .eof, 17⟩ =
      .ok (.commit { noCommit with other := [b!"x-one two three ", b!"four"], message := b!"message\n" }) ∧
    parseObject (σ := Stream) ⟨b!"commit 0\x00" ++ b!"x-one two three four\n\nmessage\n", .eof, 16⟩ =
      .ok (.commit { noCommit with other := [b!"x-one two three ", b!"four"], message := b!"message\n" }) :=
  ⟨b!"x-one two three \nfour\n\nmessage\n",
    .cut (a := b!"x-one two three ") (by decide) (by decide) (by decide)
      (.line (a := b!"four") (by decide) (by decide)
        (.line (a := []) (by decide) (by decide)
          (.line (a := b!"message") (by decide) (by decide) (.last (by decide) (by decide))))), by rfl, by rfl⟩

end Verif.Props
