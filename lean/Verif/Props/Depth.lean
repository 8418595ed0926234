import Verif.Proofs.Depth

/-!
# C94: how deep the recursion on merge tags goes
-/

namespace Verif.Props

open Verif Spec

theorem parseObjectIn_commit (d : Nat) (s : Stream)
    (h : ∀ s', readType s = .ok (b!"commit", s') → decodeCommitIn d s' = decodeCommit s') :
    parseObjectIn d s = parseObject s := by
  unfold parseObjectIn parseObject
  cases ht : readType s with
  | err e => cases e <;> rfl
  | panic => rfl
  | ok p =>
    obtain ⟨typ, s'⟩ := p
    simp only [Res.bind_ok]
    split
    · rfl
    · split
      · rename_i hc
        subst hc
        rw [h s' ht]
      · rfl

/-- A file of less than `59 * d + 10` bytes is read the same with room for `d`
frames as with room for any number of them, whether it is accepted or not. -/
theorem stack_enough (d : Nat) (s : Stream) (hN : 58 ≤ s.bufsz) (h : s.rest.length < 59 * d + 10) :
    parseObjectIn d s = parseObject s := by
  refine parseObjectIn_commit d s fun s' ht => ?_
  obtain ⟨hlt, -, hr⟩ := readType_ok _ _ _ ht
  have hlen : s.rest.length = s'.rest.length + 7 := by
    simpa using congrArg List.length hr
  unfold decodeCommitIn decodeCommit
  cases hn : readNum s' with
  | err e => cases e <;> rfl
  | panic => rfl
  | ok p =>
    obtain ⟨n, s1⟩ := p
    have hc := readNum_cost s' s1 n hn
    simp only [Res.bind_ok]
    exact commitLoopIn_room d _ _ s1 (by rw [hc.2, hlt.bufsz]; exact hN) (by omega)

/-- A commit that is accepted needs at most one frame more than it has merge
tags. -/
theorem stack_tags (d : Nat) (s : Stream) (hN : 2 ≤ s.bufsz) (c : Commit)
    (h : parseObject s = .ok (.commit c)) (hd : c.mergetag.length < d) :
    parseObjectIn d s = .ok (.commit c) := by
  rw [← h]
  refine parseObjectIn_commit d s fun s' ht => ?_
  have hlt := (readType_ok _ _ _ ht).1
  have hN' : 2 ≤ s'.bufsz := by rw [hlt.bufsz]; exact hN
  have hc : decodeCommit s' = .ok c := by
    unfold parseObject at h
    rw [ht, Res.bind_ok] at h
    simp only at h
    rw [if_neg (by decide), if_pos trivial] at h
    obtain ⟨c1, h1, h2⟩ := Res.bind_eq_ok.1 h
    simp only [Res.ok.injEq, Obj.commit.injEq] at h2
    rw [← h2]; exact h1
  rw [hc]
  unfold decodeCommit at hc
  unfold decodeCommitIn
  obtain ⟨⟨n, s1⟩, hn, hc⟩ := Res.bind_eq_ok.1 hc
  have hl := readNum_lt _ _ _ hn
  rw [hn, Res.bind_ok]
  exact commitLoopIn_tags d _ _ s1 (by rw [hl.bufsz]; exact hN') c hc hd

theorem tower_type (d N : Nat) (e : Err) :
    readType (⟨tower d, e, N⟩ : Stream) = .ok (b!"commit", ⟨b!"0" ++ NUL :: tagsText d, e, N⟩) :=
  readType_word b!"commit" _ e N (by decide)

theorem tower_num (d N : Nat) (e : Err) :
    readNum (⟨b!"0" ++ NUL :: tagsText d, e, N⟩ : Stream) = .ok (0, ⟨tagsText d, e, N⟩) := by
  unfold readNum
  rw [reader_readString, Stream.readString_delim _ _ _ _ _ (by decide)]
  simp only [Res.bind_ok]
  rw [chop_concat, Res.bind_ok]
  rfl

/-- The tower of `d` merge tags, of `59 * d + 10` bytes, is a commit that the
decoder accepts … -/
theorem tower_accepted (d N : Nat) (hN : 58 ≤ N) :
    parseObject (⟨tower d, .eof, N⟩ : Stream) =
      .ok (.commit { Commit.zero with mergetag := List.replicate d tag0 }) := by
  unfold parseObject
  rw [tower_type, Res.bind_ok]
  simp only
  rw [if_neg (by decide), if_pos trivial, decodeCommit_eq, tower_num, Res.bind_ok,
    commitRun_eq _ _ (by show 2 ≤ N; omega), tagsText_readLine d N .eof hN]
  simp only
  have h : commitLineRun Commit.zero (tagsLine d) ⟨tagsRest d, .eof, N⟩ =
      .ok ({ Commit.zero with mergetag := List.replicate d tag0 }, ⟨[], .eof, N⟩) := by
    refine (tower_ok _ d N Commit.zero hN ?_ rfl).trans rfl
    show d < (tagsRest d).length + 1
    have : ∀ d, d ≤ (tagsText d).length := by
      intro d
      induction d with
      | zero => exact Nat.zero_le _
      | succ d ih => simp only [tagsText, List.length_append, List.length_cons]; omega
    cases d with
    | zero => exact Nat.zero_lt_succ _
    | succ d =>
      have := this d
      simp only [tagsRest, List.length_cons]
      omega
  rw [h, Res.bind_ok]
  simp only
  rw [commitRun_eq _ _ (by show 2 ≤ N; omega)]
  rfl

/-- … if there is room for `d + 1` frames, and not otherwise. So no stack is large
enough for every commit, and the bound of `stack_enough` is sharp. -/
theorem stack_overflow (d k N : Nat) (e : Err) (hN : 58 ≤ N) (hk : k ≤ d) :
    parseObjectIn k (⟨tower d, e, N⟩ : Stream) = .err .fuel := by
  unfold parseObjectIn
  rw [tower_type, Res.bind_ok]
  simp only
  rw [if_neg (by decide), if_pos trivial]
  unfold decodeCommitIn
  rw [tower_num, Res.bind_ok]
  simp only [commitLoopIn, reader_readLine, tagsText_readLine d N e hN]
  rw [tower_fuel k d N e Commit.zero hN hk]
  rfl

/-- The four theorems in one: the largest file for which `d` frames are always
enough has `59 * d + 9` bytes. -/
theorem stack_sharp (d n N : Nat) (hN : 58 ≤ N) :
    (∀ (b : Bytes) (e : Err), b.length ≤ n → parseObjectIn d (⟨b, e, N⟩ : Stream) = parseObject (⟨b, e, N⟩ : Stream)) ↔
      n < 59 * d + 10 := by
  constructor
  · intro h
    refine Nat.lt_of_not_le fun hn => ?_
    have := h (tower d) .eof (by rw [tower_length]; exact hn)
    rw [stack_overflow d d N .eof hN (Nat.le_refl _), tower_accepted d N hN] at this
    cases this
  · intro hn b e hb
    exact stack_enough d ⟨b, e, N⟩ hN (by show b.length < _; omega)

/-! ## cases that meet the hypotheses -/

/-- Two merge tags in a row need three frames. -/
example : parseObjectIn 3 (⟨tower 2, .eof, 4096⟩ : Stream) =
      .ok (.commit { Commit.zero with mergetag := [tag0, tag0] }) ∧
    parseObjectIn 2 (⟨tower 2, .eof, 4096⟩ : Stream) = .err .fuel ∧ (tower 2).length = 128 :=
  ⟨(stack_enough 3 ⟨tower 2, .eof, 4096⟩ (by simp) (by rw [tower_length]; decide)).trans (tower_accepted 2 4096 (by simp)),
    stack_overflow 2 2 4096 .eof (by simp) (by simp), tower_length 2⟩

/-- A commit without merge tags needs one frame. -/
example : parseObjectIn 1 (⟨b!"commit 0\x00encoding x\nfoo\n\nhello", .eof, 4096⟩ : Stream) =
    .ok (.commit { Commit.zero with encoding := some b!"x", other := [b!"foo"], message := b!"hello" }) :=
  stack_tags 1 _ (by simp) _ (by decide +kernel) (by decide)

end Verif.Props
