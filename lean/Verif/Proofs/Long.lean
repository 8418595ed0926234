import Verif.Proofs.Parse

/-!
# Lines longer than the reader's buffer
-/

namespace Verif

open Spec

/-- One buffer full without LF is returned as a line. -/
theorem Stream.readLine_fragment {N : Nat} {l : Bytes} (r : Bytes) (e : Err) (hl : l.length = N) (hN : 0 < N)
    (hlf : LF ∉ l) (hcr : l.getLast? ≠ some CR) :
    Stream.readLine ⟨l ++ r, e, N⟩ = .ok (l, ⟨r, e, N⟩) := by
  subst hl
  cases l with
  | nil => simp at hN
  | cons c cs =>
    unfold Stream.readLine
    simp only [List.cons_append]
    rw [← List.cons_append, List.take_left, (splitAt_none _ _).2 hlf]
    simp only
    rw [if_pos (by simp), if_neg hcr, List.drop_left]

/-- If it ends in CR, the CR is left for the next line. -/
theorem Stream.readLine_fragment_cr {N : Nat} {l : Bytes} (r : Bytes) (e : Err) (hl : l.length + 1 = N)
    (hlf : LF ∉ l) : Stream.readLine ⟨l ++ CR :: r, e, N⟩ = .ok (l, ⟨CR :: r, e, N⟩) := by
  subst hl
  have hne : ∃ c cs, l ++ CR :: r = c :: cs := by
    cases l with
    | nil => exact ⟨_, _, rfl⟩
    | cons c cs => exact ⟨_, _, rfl⟩
  obtain ⟨c, cs, hcs⟩ := hne
  have ht : (l ++ CR :: r).take (l.length + 1) = l ++ [CR] := by
    rw [List.take_append, List.take_of_length_le (by omega)]; simp
  have hlf' : LF ∉ l ++ [CR] := by
    rw [List.mem_append]; exact fun h => h.elim hlf (by decide)
  unfold Stream.readLine
  simp only [hcs]
  rw [← hcs, ht, (splitAt_none _ _).2 hlf']
  simp

theorem commitRun_fragment (c : Commit) (l r : Bytes) (e : Err) (N : Nat) (hl : l.length = N) (hN : 2 ≤ N)
    (hlf : LF ∉ l) (hcr : l.getLast? ≠ some CR) :
    commitRun c ⟨l ++ r, e, N⟩ = commitLineRun c l ⟨r, e, N⟩ >>= fun p => commitRun p.1 p.2 := by
  rw [commitRun_eq _ _ hN, Stream.readLine_fragment r e hl (by omega) hlf hcr]

theorem commitRun_fragment_cr (c : Commit) (l r : Bytes) (e : Err) (N : Nat) (hl : l.length + 1 = N) (hN : 2 ≤ N)
    (hlf : LF ∉ l) :
    commitRun c ⟨l ++ CR :: r, e, N⟩ = commitLineRun c l ⟨CR :: r, e, N⟩ >>= fun p => commitRun p.1 p.2 := by
  rw [commitRun_eq _ _ hN, Stream.readLine_fragment_cr r e hl hlf]

/-- A line starting with `x` is an unknown header. -/
theorem commitLineRun_x (c : Commit) (y : Bytes) (s : Stream) (hN : 2 ≤ s.bufsz) :
    commitLineRun c (120 :: y) s = .ok ({ c with other := c.other ++ [120 :: y] }, s) := by
  rw [commitLineRun_eq _ _ _ hN]
  simp [hasPrefix, List.isPrefixOf]

end Verif
