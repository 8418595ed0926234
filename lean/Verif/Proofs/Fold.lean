import Verif.Spec.Fold
import Verif.Proofs.LineSim
import Verif.Proofs.Long

/-!
# Reading a folded text line by line
-/

namespace Verif

open Spec

theorem splitAt_take (N : Nat) (x : Bytes) (a b : Bytes) (h : splitAt LF (x.take N) = some (a, b)) :
    ∃ r, x = a ++ LF :: r ∧ LF ∉ a ∧ a.length < N := by
  obtain ⟨h1, h2⟩ := splitAt_some _ _ _ _ h
  refine ⟨b ++ x.drop N, ?_, h2, ?_⟩
  · calc x = x.take N ++ x.drop N := (List.take_append_drop N x).symm
      _ = _ := by rw [h1]; simp
  · have := congrArg List.length h1
    simp at this
    omega

/-- Every text falls into a first line and a rest in one of these ways. -/
theorem fold_cases (N : Nat) (hN : 2 ≤ N) (x : Bytes) :
    (LF ∉ x ∧ x.length < N) ∨
    (∃ a r, x = a ++ LF :: r ∧ LF ∉ a ∧ a.length < N) ∨
    (∃ a r, x = a ++ r ∧ LF ∉ a ∧ a.length = N ∧ a.getLast? ≠ some CR) ∨
    (∃ a r, x = a ++ CR :: r ∧ LF ∉ a ∧ a.length + 1 = N) := by
  cases hs : splitAt LF (x.take N) with
  | some p =>
    obtain ⟨r, h1, h2, h3⟩ := splitAt_take N x p.1 p.2 hs
    exact .inr (.inl ⟨p.1, r, h1, h2, h3⟩)
  | none =>
    have hn := (splitAt_none _ _).1 hs
    by_cases hl : x.length < N
    · exact .inl ⟨by rwa [List.take_of_length_le (by omega)] at hn, hl⟩
    · have hlen : (x.take N).length = N := by simp; omega
      by_cases hc : (x.take N).getLast? = some CR
      · obtain ⟨l, hl'⟩ := List.getLast?_eq_some_iff.1 hc
        refine .inr (.inr (.inr ⟨l, x.drop N, ?_, ?_, ?_⟩))
        · calc x = x.take N ++ x.drop N := (List.take_append_drop N x).symm
            _ = _ := by rw [hl']; simp
        · rw [hl', List.mem_append] at hn; exact fun h => hn (.inl h)
        · rw [hl'] at hlen; simpa using hlen
      · exact .inr (.inr (.inl ⟨x.take N, x.drop N, (List.take_append_drop N x).symm, hn, hlen, hc⟩))

theorem folded_exists' (N : Nat) (hN : 2 ≤ N) : ∀ n, ∀ x : Bytes, x.length < n → ∃ y, Folded N x y := by
  intro n
  induction n with
  | zero => intro x hx; omega
  | succ n ih =>
    intro x hx
    rcases fold_cases N hN x with ⟨h1, h2⟩ | ⟨a, r, rfl, h1, h2⟩ | ⟨a, r, rfl, h1, h2, h3⟩ |
      ⟨a, r, rfl, h1, h2⟩
    · exact ⟨x, .last h1 h2⟩
    · obtain ⟨y, hy⟩ := ih r (by simp at hx; omega)
      exact ⟨_, .line h1 h2 hy⟩
    · obtain ⟨y, hy⟩ := ih r (by simp at hx; omega)
      exact ⟨_, .cut h1 h2 h3 hy⟩
    · obtain ⟨y, hy⟩ := ih (CR :: r) (by simp at hx ⊢; omega)
      exact ⟨_, .cutCR h1 h2 hy⟩

/-- How the folding starts, read off from the first `N` bytes. -/
theorem folded_inv {N : Nat} {x y : Bytes} (h : Folded N x y) :
    (LF ∉ x.take N ∧ x.length < N ∧ y = x) ∨
    (∃ a b y', splitAt LF (x.take N) = some (a, b) ∧ y = a ++ LF :: y' ∧
      Folded N (x.drop (a.length + 1)) y') ∨
    (LF ∉ x.take N ∧ N ≤ x.length ∧ (x.take N).getLast? ≠ some CR ∧
      ∃ y', y = x.take N ++ LF :: y' ∧ Folded N (x.drop N) y') ∨
    (LF ∉ x.take N ∧ N ≤ x.length ∧ (x.take N).getLast? = some CR ∧
      ∃ y', y = x.take N ++ LF :: y' ∧ Folded N (CR :: x.drop N) y') := by
  cases h with
  | last hl hn =>
    exact .inl ⟨fun h => hl (List.mem_of_mem_take h), hn, rfl⟩
  | line hl hn h =>
    rename_i a x y
    have ht : (a ++ LF :: x).take N = a ++ LF :: x.take (N - a.length - 1) := by
      rw [List.take_append, List.take_of_length_le (by omega)]
      have : N - a.length = (N - a.length - 1) + 1 := by omega
      rw [this]; simp
    refine .inr (.inl ⟨a, _, y, by rw [ht, splitAt_notin _ _ _ hl], rfl, ?_⟩)
    have : (a ++ LF :: x).drop (a.length + 1) = x := by
      rw [List.drop_append]; simp
    rw [this]; exact h
  | cut hl hn hc h =>
    rename_i a x y
    have ht : (a ++ x).take N = a := by rw [← hn]; simp
    have hd : (a ++ x).drop N = x := by rw [← hn]; simp
    refine .inr (.inr (.inl ?_))
    rw [ht, hd]
    exact ⟨hl, by simp; omega, hc, y, rfl, h⟩
  | cutCR hl hn h =>
    rename_i a x y
    have ht : (a ++ CR :: x).take N = a ++ [CR] := by
      rw [← hn, List.take_append, List.take_of_length_le (by omega)]; simp
    have hd : (a ++ CR :: x).drop N = x := by rw [← hn, List.drop_append]; simp
    refine .inr (.inr (.inr ?_))
    rw [ht, hd]
    refine ⟨?_, by simp; omega, by simp, y, by simp, h⟩
    rw [List.mem_append]; exact fun h => h.elim hl (by decide)

theorem folded_unique' {N : Nat} {x y : Bytes} (h : Folded N x y) (hN : 2 ≤ N) :
    ∀ z, Folded N x z → y = z := by
  have main : ∀ n, ∀ x y z : Bytes, x.length < n → Folded N x y → Folded N x z → y = z := by
    intro n
    induction n with
    | zero => intro x y z hx; omega
    | succ n ih =>
      intro x y z hx hy hz
      rcases folded_inv hy with ⟨a1, a2, a3⟩ | ⟨a, b, y', a1, a2, a3⟩ | ⟨a1, a2, a3, y', a4, a5⟩ |
          ⟨a1, a2, a3, y', a4, a5⟩ <;>
        rcases folded_inv hz with ⟨b1, b2, b3⟩ | ⟨a', b', z', b1, b2, b3⟩ | ⟨b1, b2, b3, z', b4, b5⟩ |
          ⟨b1, b2, b3, z', b4, b5⟩
      · rw [a3, b3]
      · rw [(splitAt_none _ _).2 a1] at b1; cases b1
      · omega
      · omega
      · rw [(splitAt_none _ _).2 b1] at a1; cases a1
      · rw [a1] at b1; cases b1
        obtain ⟨_, g1, _, g3⟩ := splitAt_take N x _ _ a1
        have hl : (x.drop (a.length + 1)).length < n := by
          have := congrArg List.length g1; simp at this ⊢; omega
        rw [a2, b2, ih _ _ _ hl a3 b3]
      · rw [(splitAt_none _ _).2 b1] at a1; cases a1
      · rw [(splitAt_none _ _).2 b1] at a1; cases a1
      · omega
      · rw [(splitAt_none _ _).2 a1] at b1; cases b1
      · rw [a4, b4, ih _ _ _ (by simp; omega) a5 b5]
      · exact absurd b3 a3
      · omega
      · rw [(splitAt_none _ _).2 a1] at b1; cases b1
      · exact absurd a3 b3
      · rw [a4, b4, ih _ _ _ (by simp; omega) a5 b5]
  exact fun z hz => main (x.length + 1) x y z (by omega) h hz

/-- Taking out the line feeds that were put in gives the text back: all bytes are kept,
in their order, but for the line feeds (and CRs) put in. -/
theorem folded_sublist {N : Nat} {x y : Bytes} (h : Folded N x y) : x.Sublist y := by
  induction h with
  | last => exact List.Sublist.refl _
  | line _ _ _ ih => exact (List.Sublist.refl _).append (ih.cons_cons _)
  | cut _ _ _ _ ih => exact (List.Sublist.refl _).append (ih.cons _)
  | cutCR _ _ _ ih => exact (List.Sublist.refl _).append ((ih.cons _).cons _)

/-- Streams of which the second is the folding of the first. -/
structure FoldedStream (N M : Nat) (s t : Stream) : Prop where
  bufL : s.bufsz = N
  bufR : t.bufsz = M
  fin : s.fin = t.fin
  rest : Folded N s.rest t.rest

theorem Stream.readLine_short_line {N : Nat} {a : Bytes} (r : Bytes) (e : Err) (hl : LF ∉ a)
    (hn : a.length < N) : Stream.readLine ⟨a ++ LF :: r, e, N⟩ = .ok (dropCR a, ⟨r, e, N⟩) := by
  have ht : (a ++ LF :: r).take N = a ++ LF :: r.take (N - a.length - 1) := by
    rw [List.take_append, List.take_of_length_le (by omega)]
    have : N - a.length = (N - a.length - 1) + 1 := by omega
    rw [this]; simp
  unfold Stream.readLine
  cases hh : a ++ LF :: r with
  | nil => simp at hh
  | cons c cs =>
    simp only
    rw [← hh, ht, splitAt_notin _ _ _ hl]
    simp

theorem dropCR_append_cr (a : Bytes) : dropCR (a ++ [CR]) = a := by simp [dropCR]

theorem dropCR_no_cr {a : Bytes} (h : a.getLast? ≠ some CR) : dropCR a = a := by simp [dropCR, h]

theorem folded_nil {N : Nat} {y : Bytes} (h : Folded N [] y) : y = [] ∨ N = 0 := by
  generalize hx : ([] : Bytes) = x at h
  cases h with
  | last => exact .inl (by first | rfl | exact hx.symm)
  | line => simp at hx
  | cut hl hn hc h =>
    rename_i a x y
    have : a = [] := by
      have := congrArg List.length hx; simp at this; exact List.eq_nil_of_length_eq_zero (by omega)
    subst this
    exact .inr (by simpa using hn.symm)
  | cutCR => simp at hx

theorem folded_ne_nil {N : Nat} {x y : Bytes} (h : Folded N x y) (hx : x ≠ []) : y ≠ [] := by
  cases h with
  | last => exact hx
  | line => simp
  | cut => simp
  | cutCR => simp

/-- The first line of a non-empty text and of its folding. -/
theorem folded_readLine {N M : Nat} (hN : 2 ≤ N) (hM : N < M) (e : Err) {x y : Bytes}
    (h : Folded N x y) (hx : x ≠ []) :
    ∃ l x' y', Stream.readLine ⟨x, e, N⟩ = .ok (l, ⟨x', e, N⟩) ∧
      Stream.readLine ⟨y, e, M⟩ = .ok (l, ⟨y', e, M⟩) ∧ Folded N x' y' ∧
      x'.length < x.length ∧ y'.length < y.length := by
  cases h with
  | last hl hn =>
    refine ⟨x, [], [], Stream.readLine_last e hx hl hn, Stream.readLine_last e hx hl (by omega),
      .last (by simp) (by simp; omega), ?_, ?_⟩ <;> exact List.length_pos_iff.2 hx
  | line hl hn h =>
    refine ⟨_, _, _, Stream.readLine_short_line _ e hl hn, Stream.readLine_short_line _ e hl (by omega), h,
      ?_, ?_⟩ <;> simp <;> omega
  | cut hl hn hc h =>
    refine ⟨_, _, _, Stream.readLine_fragment _ e hn (by omega) hl hc, ?_, h, ?_, ?_⟩
    · rw [Stream.readLine_short_line _ e hl (by omega), dropCR_no_cr hc]
    · simp; omega
    · simp; omega
  | cutCR hl hn h =>
    rename_i a x y
    refine ⟨_, _, _, Stream.readLine_fragment_cr _ e hn hl, ?_, h, ?_, ?_⟩
    · have hl' : LF ∉ a ++ [CR] := by
        rw [List.mem_append]; exact fun h => h.elim hl (by decide)
      have := Stream.readLine_short_line (N := M) (a := a ++ [CR]) y e hl' (by simp; omega)
      rw [dropCR_append_cr] at this
      rw [← this]; simp
    · simp; omega
    · simp; omega

theorem fold_sim (N M : Nat) (hN : 2 ≤ N) (hM : N < M) :
    LineSim (FoldedStream N M) (Folded N) where
  readLine s t h := by
    obtain ⟨x, e, n⟩ := s
    obtain ⟨y, e', m⟩ := t
    obtain ⟨h1, h2, h3, h4⟩ := h
    simp only at h1 h2 h3 h4
    subst h1 h2 h3
    by_cases hx : x = []
    · subst hx
      have hy := (folded_nil h4).resolve_right (by omega)
      subst hy
      exact .inl ⟨e, rfl, rfl⟩
    · obtain ⟨l, x', y', g1, g2, g3, g4, g5⟩ := folded_readLine hN hM e h4 hx
      exact .inr ⟨l, _, _, g1, g2, ⟨rfl, rfl, rfl, g3⟩, g4, g5⟩
  readAll s t h := by
    obtain ⟨x, e, n⟩ := s
    obtain ⟨y, e', m⟩ := t
    obtain ⟨h1, h2, h3, h4⟩ := h
    simp only at h1 h2 h3 h4
    subst h1 h2 h3
    by_cases he : e = .eof
    · subst he
      exact .inr ⟨x, y, ⟨[], .eof, n⟩, ⟨[], .eof, m⟩, rfl, rfl, h4,
        ⟨rfl, rfl, rfl, .last (by simp) (by simp; omega)⟩, Nat.zero_le _, Nat.zero_le _⟩
    · refine .inl ⟨e, ?_, ?_⟩ <;>
        · show Stream.readAll _ = _
          unfold Stream.readAll
          rw [if_neg he]

end Verif
