import Verif.Props.Chunks
import Verif.Proofs.Failing

/-!
# Failing readers: C24, C57
-/

namespace Verif.Props

open Verif Spec

/-! ## C24 Read failures are reported -/

/-- From any `io.Reader` that never reports EOF, but fails at some point and goes on
failing, with or without data, only a blob can be decoded, and only if its whole body
had arrived before. -/
theorem read_failure_any {ρ : Type} [Source ρ] {inv : ρ → Prop} {pending : ρ → Bytes}
    (D : NeverEnds ρ inv pending) (r : ρ) (hr : inv r) (size : Nat) (hs : 0 < size) (room : Nat → Nat) (o : Obj)
    (h : parseObject (newReader r size room) = .ok o) :
    ∃ d content rest, o = .blob (b!"blob " ++ decimal content.length ++ NUL :: content) ∧
      pending r = b!"blob " ++ d ++ NUL :: (content ++ rest) ∧ Signed d content.length :=
  noEnd_parseObject (bufio_noEnd D) _ _
    ⟨⟨hr, by simp [newReader], hs, by simp [newReader]⟩, by simp [newReader, aheadOf]⟩ o h

/-- Lists of chunks with an error at the end are such readers. -/
theorem script_neverEnds (fin : Err) (hf : fin ≠ .eof) :
    NeverEnds Script (fun s => s.fin = fin) (fun s => s.chunks.flatten) where
  stays k s hk h := by
    simp only [Source.read, Script.read]
    split
    · exact h
    · split <;> exact h
  size k s hk h := by
    simp only [Source.read, Script.read]
    split
    · simp
    · split
      · assumption
      · simp; omega
  data k s hk h := by
    simp only [Source.read, Script.read]
    split
    · rename_i hc; simp [hc]
    · rename_i c cs hc
      split
      · simp [hc]
      · simp only [hc, List.flatten_cons]
        rw [← List.append_assoc, List.take_append_drop]
  noEof k s hk h := by
    simp only [Source.read, Script.read]
    split
    · simpa [h] using hf
    · split
      · simp only [h]
        split
        · simpa using hf
        · simp
      · simp

/-- A reader that fails together with the last bytes of a commit. -/
example (o : Obj) : parseObject (newReader (⟨[b!"commit 3\x00", b!"abc"], .io 7, true⟩ : Script) 16 (fun _ => 511)) ≠
    .ok o := by
  intro h
  obtain ⟨d, content, rest, _, h2, _⟩ := read_failure_any (script_neverEnds (.io 7) (by simp)) _ rfl _ (by omega) _ _ h
  have := congrArg List.head? h2
  simp at this

/-! ## C57 Errors that are not repeated -/

/-- A tree is refused and an incomplete blob too if the first error of the reader is
not EOF, whatever the reader does after that. -/
theorem first_error_partial {ρ : Type} [Source ρ] {inv : ρ → Prop} {pending : ρ → Bytes}
    (D : FailsFirst ρ inv pending) (r : ρ) (hr : inv r) (size : Nat) (hs : 20 < size) (room : Nat → Nat) (o : Obj)
    (h : parseObject (newReader r size room) = .ok o) :
    (∃ d content rest, o = .blob (b!"blob " ++ decimal content.length ++ NUL :: content) ∧
      pending r = b!"blob " ++ d ++ NUL :: (content ++ rest) ∧ Signed d content.length) ∨
    (∃ c, o = .commit c ∧ b!"commit " <+: pending r) ∨ (∃ t, o = .tag t ∧ b!"tag " <+: pending r) := by
  rcases reports_parseObject (bufio_reports D) (newReader r size room) (pending r)
    ⟨by simp [newReader], hs, by simp [newReader], pending r, by simp [newReader], fun _ => ⟨hr, rfl⟩⟩ o h with
    h | ⟨s1, a1, _, ⟨c, h, _, ha⟩ | ⟨t, h, _, ha⟩⟩
  · exact .inl h
  · exact .inr (.inl ⟨c, h, a1, ha.symm⟩)
  · exact .inr (.inr ⟨t, h, a1, ha.symm⟩)

/-- Lists of chunks with errors are such readers as long as an error that is not EOF
is still to come. -/
theorem flaky_failsFirst : FailsFirst Flaky
    (fun s => ∃ pre c e post, s.chunks = pre ++ (c, some e) :: post ∧ (∀ x ∈ pre, x.2 = none) ∧ e ≠ .eof)
    (fun s => Flaky.before s.chunks) where
  stays k s hk h he := by
    obtain ⟨pre, c, e, post, hc, hpre, hne⟩ := h
    cases pre with
    | nil =>
      simp only [Source.read, Flaky.read, hc, List.nil_append] at he ⊢
      split at he
      · simp at he
      · rename_i hk'
        rw [if_neg hk']
        exact ⟨⟨[], _, e, post, rfl, by simp, hne⟩, by simp [Flaky.before]⟩
    | cons x pre =>
      obtain ⟨c', e'⟩ := x
      have : e' = none := hpre (c', e') (by simp)
      subst this
      simp only [Source.read, Flaky.read, hc, List.cons_append] at he ⊢
      split
      · exact ⟨⟨pre, c, e, post, rfl, fun x hx => hpre x (by simp [hx]), hne⟩, rfl⟩
      · refine ⟨⟨(c'.drop k, none) :: pre, c, e, post, rfl, ?_, hne⟩, ?_⟩
        · intro x hx
          rcases List.mem_cons.1 hx with rfl | hx
          · rfl
          · exact hpre x (by simp [hx])
        · simp only [Flaky.before]
          rw [← List.append_assoc, List.take_append_drop]
  size k s hk h := by
    simp only [Source.read, Flaky.read]
    split
    · simp
    · split
      · assumption
      · simp; omega
  error k s x hk h he := by
    obtain ⟨pre, c, e, post, hc, hpre, hne⟩ := h
    cases pre with
    | nil =>
      simp only [Source.read, Flaky.read, hc, List.nil_append] at he ⊢
      split at he
      · rename_i hk'
        simp only [Option.some.injEq] at he
        rw [if_pos hk']
        exact ⟨he ▸ hne, by simp [Flaky.before]⟩
      · simp at he
    | cons x' pre =>
      obtain ⟨c', e'⟩ := x'
      have : e' = none := hpre (c', e') (by simp)
      subst this
      simp only [Source.read, Flaky.read, hc, List.cons_append] at he
      split at he <;> simp at he

/-- A tree whose reader fails once. -/
example (o : Obj) : parseObject (newReader (⟨[(b!"tree 3\x00", none), (b!"1", some (.io 7))]⟩ : Flaky) 4096
    (fun _ => 511)) ≠ .ok o := by
  intro h
  rcases first_error_partial flaky_failsFirst _ ⟨[(b!"tree 3\x00", none)], b!"1", .io 7, [], rfl, by simp, by simp⟩ _
    (by omega) _ _ h with ⟨d, _, _, _, h2, _⟩ | ⟨_, _, h2⟩ | ⟨_, _, h2⟩
  · have := congrArg List.head? h2
    simp [Flaky.before] at this
  · obtain ⟨_, h2⟩ := h2
    have := congrArg List.head? h2
    simp [Flaky.before] at this
  · obtain ⟨_, h2⟩ := h2
    have := congrArg (·[1]?) h2
    simp [Flaky.before] at this

theorem flaky_read_fits (c : Bytes) (e : Option Err) (cs : List (Bytes × Option Err)) (k : Nat) (h : c.length ≤ k) :
    Source.read k (⟨(c, e) :: cs⟩ : Flaky) = ((c, e), ⟨cs⟩) := by
  simp only [Source.read, Flaky.read]; rw [if_pos h]

theorem flaky_fill (c : Bytes) (e : Option Err) (cs : List (Bytes × Option Err)) (N : Nat) (room : Nat → Nat)
    (h0 : c ≠ []) (hN : c.length ≤ N) :
    Bufio.fill 100 ⟨[], none, (⟨(c, e) :: cs⟩ : Flaky), N, room⟩ = ⟨c, e, ⟨cs⟩, N, room⟩ := by
  have h0 := List.length_pos_iff.2 h0
  rw [show (100 : Nat) = 99 + 1 from rfl, Bufio.fill]
  simp only [List.length_nil, Nat.sub_zero, List.nil_append]
  rw [flaky_read_fits _ _ _ _ hN]
  cases e with
  | some e => rfl
  | none => simp only; rw [if_pos h0]

theorem flaky_line (c : Bytes) (e : Err) (cs : List (Bytes × Option Err)) (N : Nat) (room : Nat → Nat)
    (h0 : c ≠ []) (h : LF ∉ c) (hN : c.length ≤ N) :
    Reader.readLine (⟨[], none, (⟨(c, some e) :: cs⟩ : Flaky), N, room⟩ : Bufio Flaky) =
      .ok (c, ⟨[], none, ⟨cs⟩, N, room⟩) := by
  have hp := List.length_pos_iff.2 h0
  show Bufio.readLine _ = _
  rw [Bufio.readLine, readSlice_fill _ _ _ rfl rfl (by show 0 < N; omega), flaky_fill _ _ _ _ _ h0 hN,
    readSlice_err _ _ _ e ((splitAt_none _ _).2 h) rfl]
  simp only [Res.bind_ok]
  rw [if_neg (by omega)]

theorem flaky_end (N : Nat) (hN : 0 < N) (room : Nat → Nat) :
    Reader.readLine (⟨[], none, (⟨[]⟩ : Flaky), N, room⟩ : Bufio Flaky) = .err .eof := by
  show Bufio.readLine _ = _
  rw [Bufio.readLine, readSlice_fill _ _ _ rfl rfl (by exact hN)]
  rw [show Bufio.fill 100 (⟨[], none, (⟨[]⟩ : Flaky), N, room⟩ : Bufio Flaky) = ⟨[], some .eof, ⟨[]⟩, N, room⟩ from rfl,
    readSlice_err _ _ _ .eof rfl rfl]
  rfl

theorem flaky_string (d : UInt8) (c : Bytes) (cs : List (Bytes × Option Err)) (N : Nat)
    (room : Nat → Nat) (x y : Bytes) (h : splitAt d c = some (x, y)) (hN : c.length ≤ N) :
    Reader.readString d (⟨[], none, (⟨(c, none) :: cs⟩ : Flaky), N, room⟩ : Bufio Flaky) =
      .ok (x ++ [d], ⟨y, none, ⟨cs⟩, N, room⟩) := by
  have h0 : c ≠ [] := by rintro rfl; simp [splitAt] at h
  have := List.length_pos_iff.2 h0
  show Bufio.readString d (Bufio.left _ + 1 + 1) [] _ = _
  rw [Bufio.readString, readSlice_fill _ _ _ rfl rfl (by show 0 < N; omega), flaky_fill _ _ _ _ _ h0 hN,
    readSlice_found _ _ _ _ _ h]
  rfl

/-- The claim does not hold for commits: an error in the middle of a header line is
forgotten. The line is taken as it is up to there, and if the next `Read` reports EOF
the commit is complete. -/
theorem fleeting_error_lost (x : Bytes) (n : Nat) (room : Nat → Nat) (h0 : x ≠ []) (hlf : LF ∉ x)
    (hl : x.length ≤ 4096) (hk : ∀ p ∈ knownHeaders, ¬ p <+: x) :
    parseObject (newReader (⟨[(b!"commit 0\x00", none), (x, some (.io n))]⟩ : Flaky) 4096 room) =
      .ok (.commit { noCommit with other := [x] }) := by
  have hat : atoi b!"0" = .ok 0 := by decide
  unfold parseObject readType
  rw [newReader, flaky_string SP _ _ _ _ b!"commit" b!"0\x00" (by decide) (by simp)]
  simp only [Res.bind_ok, chop_concat]
  rw [if_neg (by decide), if_pos trivial]
  unfold decodeCommit readNum
  rw [readString_buffered NUL _ b!"0" [] (by rfl)]
  simp only [Res.bind_ok, chop_concat, hat]
  rw [commitLoop, flaky_line _ _ _ _ _ h0 hlf hl]
  simp only []
  have hline : ∀ f c (s : Bufio Flaky), commitLine (f + 1) c x s = .ok ({ c with other := c.other ++ [x] }, s) := by
    intro f c s
    have hp : ∀ p ∈ knownHeaders, hasPrefix x p = false := by
      intro p hp
      have := hk p hp
      simpa [hasPrefix, ← List.isPrefixOf_iff_prefix] using this
    rw [commitLine]
    simp only [knownHeaders, List.mem_cons, List.mem_nil_iff, or_false, forall_eq_or_imp, forall_eq] at hp
    obtain ⟨p1, p2, p3, p4, p5, p6, p7⟩ := hp
    simp only [p1, p2, p3, p4, p5, p6, p7, Bool.false_eq_true, if_false]
    rw [if_neg (by simpa using h0)]
  rw [hline]
  simp only [Res.bind_ok]
  have hlen := List.length_pos_iff.2 h0
  rw [show Reader.left (⟨[], none, (⟨[(x, some (.io n))]⟩ : Flaky), 4096, room⟩ : Bufio Flaky) =
    (x.length - 1) + 1 by simp [Reader.left, Bufio.left, Source.left]; omega]
  rw [commitLoop, flaky_end _ (by omega)]
  rfl

/-- Nor for tags. -/
theorem fleeting_error_lost_tag (x : Bytes) (n : Nat) (room : Nat → Nat) (hlf : LF ∉ x)
    (hl : x.length + 4 ≤ 4096) :
    parseObject (newReader (⟨[(b!"tag 0\x00", none), (b!"tag " ++ x, some (.io n))]⟩ : Flaky) 4096 room) =
      .ok (.tag { noTag with tag := x }) := by
  unfold parseObject readType
  rw [newReader, flaky_string SP _ _ _ _ b!"tag" b!"0\x00" (by decide) (by simp)]
  simp only [Res.bind_ok, chop_concat]
  rw [if_neg (by decide), if_neg (by decide), if_neg (by decide), if_pos trivial]
  unfold decodeTag
  rw [readString_buffered NUL _ b!"0" [] (by rfl)]
  simp only [Res.bind_ok]
  have hlf' : LF ∉ b!"tag " ++ x := by
    simp only [List.mem_append]
    rintro (h | h)
    · exact absurd h (by decide)
    · exact hlf h
  rw [tagLoop, flaky_line _ _ _ _ _ (by simp) hlf' (by simp; omega)]
  simp only []
  have hline : ∀ t (s : Bufio Flaky), tagLine t (b!"tag " ++ x) s = .ok ({ t with tag := x }, s) := by
    intro t s
    simp [tagLine, hasPrefix, List.isPrefixOf, sliceFrom]
  rw [hline]
  simp only [Res.bind_ok]
  rw [show Reader.left (⟨[], none, (⟨[(b!"tag " ++ x, some (.io n))]⟩ : Flaky), 4096, room⟩ : Bufio Flaky) =
    (x.length + 3) + 1 by simp [Reader.left, Bufio.left, Source.left]]
  rw [tagLoop, flaky_end _ (by omega)]
  rfl

/-- A parent line cut by a failing read is no parent, but becomes an unknown header. -/
example : parseObject (newReader (⟨[(b!"commit 0\x00", none), (b!"paren", some (.io 7))]⟩ : Flaky) 4096
    (fun _ => 511)) = .ok (.commit { noCommit with other := [b!"paren"] }) :=
  fleeting_error_lost _ _ _ (by decide) (by decide) (by decide) (by decide)

end Verif.Props
