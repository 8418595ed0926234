import Verif.Model.Decode
import Verif.Spec.Objects

namespace Verif

theorem splitAt_notin (d : UInt8) (l r : Bytes) (h : d ∉ l) :
    splitAt d (l ++ d :: r) = some (l, r) := by
  induction l with
  | nil => simp [splitAt]
  | cons c cs ih =>
    simp only [List.mem_cons, not_or] at h
    simp [splitAt, Ne.symm h.1, ih h.2]

theorem splitAt_none (d : UInt8) (l : Bytes) : splitAt d l = none ↔ d ∉ l := by
  induction l with
  | nil => simp [splitAt]
  | cons c cs ih =>
    simp only [splitAt]
    split
    · simp_all
    · rename_i h
      split
      · rename_i a b he
        rw [he] at ih; simp at ih
        simp [ih]
      · rename_i he
        rw [he] at ih; simp at ih
        simp [ih]; exact Ne.symm h

theorem splitAt_some (d : UInt8) (l a b : Bytes) (h : splitAt d l = some (a, b)) :
    l = a ++ d :: b ∧ d ∉ a := by
  induction l generalizing a b with
  | nil => simp [splitAt] at h
  | cons c cs ih =>
    simp only [splitAt] at h
    split at h
    · simp only [Option.some.injEq, Prod.mk.injEq] at h
      obtain ⟨rfl, rfl⟩ := h
      simp_all
    · rename_i hc
      split at h
      · rename_i a' b' he
        simp only [Option.some.injEq, Prod.mk.injEq] at h
        obtain ⟨rfl, rfl⟩ := h
        have := ih _ _ he
        simp [this.1, this.2]; exact Ne.symm hc
      · simp at h

theorem dropCR_of (l : Bytes) (h : l.getLast? ≠ some CR) : dropCR l = l := by
  simp [dropCR, h]

theorem Stream.readLine_line {N : Nat} {l : Bytes} (r : Bytes) (e : Err) (h : Spec.HeaderLine N l) :
    Stream.readLine ⟨l ++ LF :: r, e, N⟩ = .ok (l, ⟨r, e, N⟩) := by
  have hne : ∃ c cs, l ++ LF :: r = c :: cs := by
    cases l with
    | nil => exact ⟨_, _, rfl⟩
    | cons c cs => exact ⟨_, _, rfl⟩
  obtain ⟨c, cs, hcs⟩ := hne
  have htake : (l ++ LF :: r).take N = l ++ LF :: r.take (N - l.length - 1) := by
    have hl := h.short
    rw [List.take_append, List.take_of_length_le (by omega)]
    have : N - l.length = (N - l.length - 1) + 1 := by omega
    rw [this]; simp
  unfold Stream.readLine
  simp only [hcs]
  rw [← hcs, htake, splitAt_notin _ _ _ h.noLF]
  simp [dropCR_of _ h.noCR]

/-- The last line of a stream, without LF. -/
theorem Stream.readLine_last {N : Nat} {l : Bytes} (e : Err) (hne : l ≠ []) (hlf : LF ∉ l)
    (hs : l.length < N) : Stream.readLine ⟨l, e, N⟩ = .ok (l, ⟨[], e, N⟩) := by
  cases l with
  | nil => exact absurd rfl hne
  | cons c cs =>
    unfold Stream.readLine
    simp only
    rw [List.take_of_length_le (by omega), (splitAt_none _ _).2 hlf]
    simp only
    rw [if_neg (by omega)]

@[simp] theorem Stream.readLine_nil (e : Err) (N : Nat) : Stream.readLine ⟨[], e, N⟩ = .err e := rfl

theorem Stream.readString_delim (d : UInt8) (l r : Bytes) (e : Err) (N : Nat) (h : d ∉ l) :
    Stream.readString d ⟨l ++ d :: r, e, N⟩ = .ok (l ++ [d], ⟨r, e, N⟩) := by
  simp [Stream.readString, splitAt_notin _ _ _ h]

theorem Stream.readString_ok (d : UInt8) (s s' : Stream) (x : Bytes)
    (h : Stream.readString d s = .ok (x, s')) :
    ∃ a, x = a ++ [d] ∧ d ∉ a ∧ s.rest = a ++ d :: s'.rest ∧ s'.fin = s.fin ∧ s'.bufsz = s.bufsz := by
  unfold Stream.readString at h
  split at h
  · rename_i a b he
    simp only [Res.ok.injEq, Prod.mk.injEq] at h
    obtain ⟨rfl, rfl⟩ := h
    have := splitAt_some _ _ _ _ he
    exact ⟨a, rfl, this.2, this.1, rfl, rfl⟩
  · simp at h

theorem Stream.readString_err (d : UInt8) (s : Stream) (e : Err) :
    Stream.readString d s = .err e ↔ d ∉ s.rest ∧ e = s.fin := by
  unfold Stream.readString
  split
  · rename_i a b he
    have := splitAt_some _ _ _ _ he
    simp [this.1]
  · rename_i he
    simp [(splitAt_none _ _).1 he, eq_comm]

theorem Stream.readString_ne_panic (d : UInt8) (s : Stream) : Stream.readString d s ≠ .panic := by
  unfold Stream.readString; split <;> simp

@[simp] theorem chop_concat (a : Bytes) (d : UInt8) : chop (a ++ [d]) = .ok a := by
  simp [chop]

theorem readNum_stream (l r : Bytes) (e : Err) (N : Nat) (h : NUL ∉ l) :
    readNum (σ := Stream) ⟨l ++ NUL :: r, e, N⟩ = (atoi l >>= fun n => .ok (n, ⟨r, e, N⟩)) := by
  simp only [readNum, Reader.readString]
  rw [Stream.readString_delim _ _ _ _ _ h]
  simp

/-- A successful `ReadLine` consumes at least one byte. -/
theorem Stream.readLine_shrinks (s s' : Stream) (l : Bytes) (hN : 2 ≤ s.bufsz)
    (h : Stream.readLine s = .ok (l, s')) :
    s'.rest.length < s.rest.length ∧ s'.fin = s.fin ∧ s'.bufsz = s.bufsz := by
  unfold Stream.readLine at h
  split at h
  · simp at h
  · rename_i c cs hs
    have hlen : 0 < s.rest.length := by rw [hs]; simp
    split at h
    · simp only [Res.ok.injEq, Prod.mk.injEq] at h
      obtain ⟨rfl, rfl⟩ := h
      simp; omega
    · split at h
      · simp only at h
        split at h
        · simp only [Res.ok.injEq, Prod.mk.injEq] at h
          obtain ⟨rfl, rfl⟩ := h
          simp; omega
        · simp only [Res.ok.injEq, Prod.mk.injEq] at h
          obtain ⟨rfl, rfl⟩ := h
          simp; omega
      · simp only [Res.ok.injEq, Prod.mk.injEq] at h
        obtain ⟨rfl, rfl⟩ := h
        simpa using hlen

theorem Stream.readLine_ne_panic (s : Stream) : Stream.readLine s ≠ .panic := by
  unfold Stream.readLine
  split
  · simp
  · split
    · simp
    · split
      · simp only; split <;> simp
      · simp

theorem Stream.readLine_err (s : Stream) (e : Err) :
    Stream.readLine s = .err e ↔ s.rest = [] ∧ e = s.fin := by
  unfold Stream.readLine
  split
  · rename_i h; simp [h, eq_comm]
  · rename_i h
    split
    · simp [h]
    · split
      · simp only; split <;> simp [h]
      · simp [h]

end Verif
