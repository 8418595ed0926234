import Verif.Model.Writer
import Verif.Proofs.RoundTrip

/-!
# C29: failing writers
-/

namespace Verif.Props

open Verif Spec

variable {σ : Type}

theorem writeOnce_prefix (W : Writer σ) (st : σ) (p : Bytes) : (writeOnce W st p).got <+: p :=
  List.take_prefix _ _

theorem writeOnce_full (W : Writer σ) (hW : W.Honest) (st : σ) (p : Bytes)
    (h : (writeOnce W st p).res = none) : (writeOnce W st p).got = p := by
  have h1 := hW st p h
  simp only [writeOnce, h1, List.take_length]

theorem writeTo_prefix (W : Writer σ) (st : σ) (p : Bytes) : (writeTo W st p).got <+: p := by
  unfold writeTo
  split
  · exact List.nil_prefix
  · dsimp only
    split
    · exact writeOnce_prefix W st p
    · split <;> exact writeOnce_prefix W st p

/-- `WriteTo` catches short writes even of writers that do not report them. -/
theorem writeTo_full (W : Writer σ) (st : σ) (p : Bytes)
    (h : (writeTo W st p).res = none) : (writeTo W st p).got = p := by
  unfold writeTo at h ⊢
  split
  · rename_i h0
    exact (List.length_eq_zero_iff.1 h0).symm
  · rename_i h0
    rw [if_neg h0] at h
    dsimp only at h ⊢
    split at h
    · cases h
    · split at h
      · cases h
      · rename_i hl
        rw [if_neg hl]
        have h1 := writeOnce_prefix W st p
        exact h1.eq_of_length_le (by omega)

/-- C29. For every writer that follows the `io.Writer` rule and every node:
what the writer accepted is a prefix of the node's encoding, `Encode` returns nil
only if the writer accepted the complete encoding, and when the node cannot be
encoded nothing is written and an error is returned. -/
theorem encode_writer (W : Writer σ) (hW : W.Honest) (st : σ) (n : Node) (r : Written σ)
    (h : encodeTo W st n = .ok r) :
    (∃ e, encodeBytes n = .err e ∧ r.got = [] ∧ r.res = some e) ∨
    (∃ b, encodeBytes n = .ok b ∧ r.got <+: b ∧ (r.res = none → r.got = b)) := by
  unfold encodeTo at h
  cases ho : encode n with
  | err e =>
    rw [ho] at h
    cases h
    exact Or.inl ⟨e, by simp [encodeBytes, ho], rfl, rfl⟩
  | panic => rw [ho] at h; cases h
  | ok o =>
    rw [ho] at h
    cases h
    refine Or.inr ⟨o.bytes, by simp [encodeBytes, ho], ?_⟩
    cases o with
    | raw b => exact ⟨writeOnce_prefix W st b, writeOnce_full W hW st b⟩
    | framed word body =>
      simp only [Out.writeWith, Out.bytes, withHeader]
      cases hh : (writeOnce W st (word ++ [SP] ++ decimal body.length ++ [NUL])).res with
      | some e =>
        dsimp only
        refine ⟨(writeOnce_prefix W st _).trans (List.prefix_append _ _), ?_⟩
        intro hn
        rw [hh] at hn
        cases hn
      | none =>
        dsimp only
        rw [writeOnce_full W hW st _ hh]
        refine ⟨(List.prefix_append_right_inj _).2 (writeTo_prefix W _ body), ?_⟩
        intro hn
        rw [writeTo_full W _ body hn]

/-- `Encode` panics with a writer exactly when it panics without one: writers
add no panics. -/
theorem encode_writer_panic (W : Writer σ) (st : σ) (n : Node) :
    encodeTo W st n = .panic ↔ encodeBytes n = .panic := by
  unfold encodeTo encodeBytes
  cases encode n <;> simp

/-- A writer with room for a number of bytes, that fails with error `e` when more
is offered. -/
def roomWriter (e : Err) : Writer Nat where
  write k p := if p.length ≤ k then ((p.length, none), k - p.length) else ((k, some e), 0)
  le st p := by
    by_cases h : p.length ≤ st
    · rw [if_pos h]; exact Nat.le_refl _
    · rw [if_neg h]; dsimp only; omega

theorem roomWriter_honest (e : Err) : (roomWriter e).Honest := by
  intro st p h
  unfold roomWriter at h ⊢
  dsimp only at h ⊢
  split
  · rfl
  · rename_i h1
    rw [if_neg h1] at h
    cases h

/-- A writer with room for `k` bytes gets exactly the first `k` bytes of the
encoding, and `Encode` succeeds exactly when the whole encoding fits. -/
theorem encode_room (e : Err) (k : Nat) (n : Node) (b : Bytes) (h : encodeBytes n = .ok b) :
    ∃ r, encodeTo (roomWriter e) k n = .ok r ∧ r.got = b.take k ∧
      (r.res = none ↔ b.length ≤ k) := by
  unfold encodeBytes at h
  obtain ⟨o, ho, h⟩ := Res.bind_eq_ok.1 h
  cases h
  refine ⟨o.writeWith (roomWriter e) k, by rw [encodeTo, ho], ?_⟩
  have once : ∀ (k : Nat) (p : Bytes), (writeOnce (roomWriter e) k p).got = p.take k ∧
      ((writeOnce (roomWriter e) k p).res = none ↔ p.length ≤ k) ∧
      ((writeOnce (roomWriter e) k p).res = none → (writeOnce (roomWriter e) k p).st = k - p.length) := by
    intro k p
    unfold writeOnce roomWriter
    dsimp only
    by_cases hk : p.length ≤ k
    · rw [if_pos hk]
      exact ⟨by rw [List.take_length, List.take_of_length_le hk], ⟨fun _ => hk, fun _ => rfl⟩, fun _ => rfl⟩
    · rw [if_neg hk]
      exact ⟨rfl, ⟨(fun h => by cases h), (fun h => absurd h hk)⟩, (fun h => by cases h)⟩
  cases o with
  | raw b => exact ⟨(once k b).1, (once k b).2.1⟩
  | framed word body =>
    simp only [Out.writeWith, Out.bytes, withHeader]
    generalize hhd : word ++ [SP] ++ decimal body.length ++ [NUL] = hd
    obtain ⟨g1, g2, g3⟩ := once k hd
    cases hh : (writeOnce (roomWriter e) k hd).res with
    | some e' =>
      dsimp only
      have hk : ¬ hd.length ≤ k := fun hk => by rw [g2.2 hk] at hh; cases hh
      refine ⟨?_, ?_⟩
      · rw [g1, List.take_append_of_le_length (by omega)]
      · rw [hh, List.length_append]
        exact ⟨fun h => (by cases h), fun h => absurd h (by omega)⟩
    | none =>
      dsimp only
      have hk := g2.1 hh
      rw [g1, g3 hh, List.take_of_length_le hk]
      unfold writeTo
      by_cases hb : body.length = 0
      · rw [if_pos hb]
        have hb' := List.length_eq_zero_iff.1 hb
        subst hb'
        dsimp only
        rw [List.append_nil, List.take_of_length_le hk]
        exact ⟨rfl, ⟨fun _ => hk, fun _ => rfl⟩⟩
      · rw [if_neg hb]
        obtain ⟨q1, q2, -⟩ := once (k - hd.length) body
        dsimp only
        cases hr : (writeOnce (roomWriter e) (k - hd.length) body).res with
        | some e' =>
          dsimp only
          have hk' : ¬ body.length ≤ k - hd.length := fun hk => by rw [q2.2 hk] at hr; cases hr
          refine ⟨?_, ?_⟩
          · rw [q1, List.take_append, List.take_of_length_le hk]
          · rw [List.length_append]
            exact ⟨fun h => (by cases h), fun h => absurd h (by omega)⟩
        | none =>
          have hk' := q2.1 hr
          dsimp only
          rw [q1, List.take_of_length_le hk', if_neg (Nat.lt_irrefl _)]
          rw [q1, List.take_of_length_le hk', hr,
            List.take_of_length_le (by rw [List.length_append]; omega)]
          refine ⟨rfl, ⟨fun _ => ?_, fun _ => rfl⟩⟩
          rw [List.length_append]; omega

theorem encode_shape (n : Node) (o : Out) (h : encode n = .ok o) :
    (n.kind = .bytes ∧ ∃ b, n.asBytes = .ok b ∧ o = .raw b) ∨
    ∃ word body, word ∈ [b!"tree", b!"commit", b!"tag"] ∧ o = .framed word body := by
  have blob : ∀ o, n.kind = .bytes → encodeBlob n = .ok o →
      (n.kind = .bytes ∧ ∃ b, n.asBytes = .ok b ∧ o = .raw b) ∨
      ∃ word body, word ∈ [b!"tree", b!"commit", b!"tag"] ∧ o = .framed word body := by
    intro o hk h
    obtain ⟨b, hb, h⟩ := Res.bind_eq_ok.1 h
    cases h
    exact Or.inl ⟨hk, b, hb, rfl⟩
  have tree : ∀ o, encodeTree n = .ok o → ∃ body, o = .framed b!"tree" body := by
    intro o h
    unfold encodeTree at h
    split at h
    · cases h
    · obtain ⟨body, _, h⟩ := Res.bind_eq_ok.1 h
      cases h
      exact ⟨body, rfl⟩
  have commit : ∀ o, encodeCommit n = .ok o → ∃ body, o = .framed b!"commit" body := by
    intro o h
    obtain ⟨_, _, h⟩ := Res.bind_eq_ok.1 h
    obtain ⟨body, _, h⟩ := Res.bind_eq_ok.1 h
    cases h
    exact ⟨body, rfl⟩
  have tag : ∀ o, encodeTag n = .ok o → ∃ body, o = .framed b!"tag" body := by
    intro o h
    obtain ⟨_, _, h⟩ := Res.bind_eq_ok.1 h
    obtain ⟨_, _, h⟩ := Res.bind_eq_ok.1 h
    obtain ⟨_, _, h⟩ := Res.bind_eq_ok.1 h
    obtain ⟨_, _, h⟩ := Res.bind_eq_ok.1 h
    obtain ⟨_, _, h⟩ := Res.bind_eq_ok.1 h
    obtain ⟨_, _, h⟩ := Res.bind_eq_ok.1 h
    obtain ⟨_, _, h⟩ := Res.bind_eq_ok.1 h
    obtain ⟨_, _, h⟩ := Res.bind_eq_ok.1 h
    obtain ⟨_, _, h⟩ := Res.bind_eq_ok.1 h
    obtain ⟨_, _, h⟩ := Res.bind_eq_ok.1 h
    cases h
    exact ⟨_, rfl⟩
  have framed : ∀ word, word ∈ [b!"tree", b!"commit", b!"tag"] →
      (∃ body, o = .framed word body) → (n.kind = .bytes ∧ ∃ b, n.asBytes = .ok b ∧ o = .raw b) ∨
      ∃ word body, word ∈ [b!"tree", b!"commit", b!"tag"] ∧ o = .framed word body :=
    fun word hw ⟨body, e⟩ => Or.inr ⟨word, body, hw, e⟩
  unfold encode at h
  split at h
  · exact blob o rfl h
  · exact blob o rfl h
  · exact framed _ (by decide) (commit o h)
  · exact framed _ (by decide) (commit o h)
  · exact framed _ (by decide) (tree o h)
  · exact framed _ (by decide) (tree o h)
  · exact framed _ (by decide) (tag o h)
  · exact framed _ (by decide) (tag o h)
  · split at h
    · rename_i hk
      exact blob o hk h
    · exact framed _ (by decide) (tree o h)
    · split at h
      · cases h
      · cases h
      · split at h
        · exact framed _ (by decide) (tag o h)
        · exact framed _ (by decide) (commit o h)
    · cases h

/-- C15 for any node and what a writer gets: when `Encode` reports success, the
writer has got either the bytes of a node of bytes kind, or a type word, a size in
canonical decimal, NUL and exactly as many bytes as the size says. -/
theorem encode_size_written (W : Writer σ) (hW : W.Honest) (st : σ) (n : Node) (r : Written σ)
    (h : encodeTo W st n = .ok r) (hr : r.res = none) :
    (n.kind = .bytes ∧ n.asBytes = .ok r.got) ∨
    ∃ word d body, word ∈ [b!"tree", b!"commit", b!"tag"] ∧ Canonical d body.length ∧
      r.got = word ++ SP :: (d ++ NUL :: body) := by
  rcases encode_writer W hW st n r h with ⟨e, _, _, he⟩ | ⟨b, hb, _, hg⟩
  · rw [hr] at he; cases he
  · have hg := hg hr
    obtain ⟨o, ho, hob⟩ := Res.bind_eq_ok.1 hb
    cases hob
    rcases encode_shape n o ho with ⟨hk, b, ha, rfl⟩ | ⟨word, body, hw, rfl⟩
    · exact Or.inl ⟨hk, by rw [hg]; exact ha⟩
    · obtain ⟨d, hd, he⟩ := framed_withHeader word body
      exact Or.inr ⟨word, d, body, hw, hd, hg.trans he⟩

/-- A tag cut off in the middle of its header by a full writer. -/
example : ∃ r, encodeTo (roomWriter (.io 7)) 5 (.own (.tag Tag.zero)) = .ok r ∧
    r.got = b!"tag 3" ∧ r.res = some (.io 7) := ⟨_, rfl, by decide +kernel, by decide +kernel⟩

/-- The `io.Writer` rule is needed: a writer that silently drops bytes makes
`Encode` of a blob succeed, since only the error of `Write` is looked at. -/
theorem dishonest_writer_undetected :
    ∃ (W : Writer Unit) (n : Node) (b : Bytes) (r : Written Unit),
      encodeBytes n = .ok b ∧ encodeTo W () n = .ok r ∧ r.res = none ∧ r.got ≠ b := by
  refine ⟨⟨fun _ p => ((p.length - 1, none), ()), fun _ p => Nat.sub_le _ _⟩,
    .bytes b!"xy", b!"xy", _, rfl, rfl, rfl, ?_⟩
  decide

end Verif.Props
