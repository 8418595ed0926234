import Verif.Model.Blobs
import Verif.Spec.Blobs

/-! Lemmas about blobs in memory. -/

namespace Verif.Blobs

open Verif.Spec.Blobs

/-- What holds in every world a client can bring about. -/
structure Safe (w : World) : Prop where
  zero : 0 < w.arrays.length
  held : ∀ (h : Nat) (s : Slice), w.held[h]? = some s → s.arr < w.arrays.length
  cells : ∀ x, (w.cells.getD x nil).arr < w.arrays.length
  owns : ∀ (k : Nat) (b : Builder), w.builders[k]? = some b → b.w < w.cells.length
  own : ∀ (k : Nat) (b : Builder) (j : Nat) (b' : Builder), w.builders[k]? = some b → w.builders[j]? = some b' → b.w = b'.w → k = j
  free : ∀ (k : Nat) (b : Builder), w.builders[k]? = some b → b.done = false → b.w ∉ w.nodes
  nodes : ∀ x, x ∈ w.nodes → x < w.cells.length

theorem safe_start : Safe start := by
  constructor <;> simp [start, nil]

theorem getD_append (l : List Slice) (s : Slice) (x : Nat) :
    (l ++ [s]).getD x nil = if x = l.length then s else l.getD x nil := by
  rw [List.getD_eq_getElem?_getD, List.getD_eq_getElem?_getD, List.getElem?_append]
  split
  · rw [if_neg (by omega)]
  · split
    · simp [*]
    · rw [List.getElem?_eq_none (l := [s]) (by simp; omega), List.getElem?_eq_none (l := l) (by omega)]

theorem getD_set (l : List Slice) (s : Slice) (y x : Nat) :
    (l.set y s).getD x nil = if x = y ∧ y < l.length then s else l.getD x nil := by
  rw [List.getD_eq_getElem?_getD, List.getD_eq_getElem?_getD, List.getElem?_set]
  by_cases h : y = x
  · subst h
    by_cases hl : y < l.length
    · simp [hl]
    · simp [hl]
  · rw [if_neg h, if_neg (fun h' => h h'.1.symm)]

theorem getElem?_snoc {α : Type} (l : List α) (a b : α) (k : Nat) (h : (l ++ [a])[k]? = some b) :
    l[k]? = some b ∨ k = l.length ∧ a = b := by
  rw [List.getElem?_append] at h
  split at h
  · exact .inl h
  · cases hk : k - l.length with
    | zero => rw [hk] at h; right; exact ⟨by omega, by simpa using h⟩
    | succ m => rw [hk] at h; simp at h

theorem getElem?_put {α : Type} (l : List α) (a b : α) (i k : Nat) (h : (l.set i a)[k]? = some b) :
    (k ≠ i ∧ l[k]? = some b) ∨ (k = i ∧ a = b) := by
  rw [List.getElem?_set] at h
  split at h
  · split at h
    · cases h; exact .inr ⟨by omega, rfl⟩
    · cases h
  · exact .inl ⟨by omega, h⟩

theorem safe_cell {w : World} (S : Safe w) {s : Slice} (hs : s.arr < w.arrays.length) :
    ∀ x, ((w.cells ++ [s]).getD x nil).arr < w.arrays.length := by
  intro x
  rw [getD_append]
  split
  · exact hs
  · exact S.cells x

theorem safe_more {w : World} (S : Safe w) (bs : Bytes) : Safe { w with arrays := w.arrays ++ [bs] } :=
  ⟨by simp, fun h s e => by have := S.held h s e; simp only [List.length_append]; omega,
    fun x => by have := S.cells x; simp only [List.length_append]; omega, S.owns, S.own, S.free, S.nodes⟩

theorem safe_hold {w : World} (S : Safe w) {s : Slice} (hs : s.arr < w.arrays.length) :
    Safe { w with held := w.held ++ [s] } :=
  ⟨S.zero, fun h t e => by
    rcases getElem?_snoc _ _ _ _ e with e | ⟨-, rfl⟩
    · exact S.held h t e
    · exact hs, S.cells, S.owns, S.own, S.free, S.nodes⟩

theorem safe_assign {w : World} (S : Safe w) (k : Nat) {s : Slice} (hs : s.arr < w.arrays.length) :
    Safe (assign k s w).1 := by
  unfold assign
  split
  · exact S
  · rename_i b hb
    split
    · exact S
    · rename_i hd
      refine ⟨S.zero, S.held, ?_, ?_, ?_, ?_, ?_⟩
      · intro x
        simp only
        rw [getD_set]
        split
        · exact hs
        · exact S.cells x
      · intro j b' h
        simp only [List.length_set]
        rcases getElem?_put _ _ _ _ _ h with ⟨-, h⟩ | ⟨-, rfl⟩
        · exact S.owns j b' h
        · exact S.owns k b hb
      · intro i bi j bj h1 h2 he
        rcases getElem?_put _ _ _ _ _ h1 with ⟨n1, h1⟩ | ⟨e1, rfl⟩ <;>
          rcases getElem?_put _ _ _ _ _ h2 with ⟨n2, h2⟩ | ⟨e2, rfl⟩
        · exact S.own i bi j bj h1 h2 he
        · exact absurd (S.own i bi k b h1 hb he) n1
        · exact absurd (S.own j bj k b h2 hb he.symm) n2
        · omega
      · intro j b' h hf
        rcases getElem?_put _ _ _ _ _ h with ⟨-, h⟩ | ⟨-, rfl⟩
        · exact S.free j b' h hf
        · cases hf
      · intro x hx
        simp only [List.length_set]
        exact S.nodes x hx

theorem safe_builders {w : World} (S : Safe w) (bs : List Builder)
    (h : ∀ (k : Nat) (b : Builder), bs[k]? = some b → w.builders[k]? = some b ∨ b = ⟨w.cells.length, false⟩)
    (one : ∀ k j : Nat, bs[k]? = some ⟨w.cells.length, false⟩ → bs[j]? = some ⟨w.cells.length, false⟩ → k = j) :
    Safe { w with cells := w.cells ++ [nil], builders := bs } := by
  have z := S.zero
  refine ⟨z, S.held, safe_cell S (by simpa [nil] using z), ?_, ?_, ?_, ?_⟩
  · intro k b hb
    simp only [List.length_append, List.length_singleton]
    rcases h k b hb with h | rfl
    · have := S.owns k b h; omega
    · simp
  · intro k b j b' h1 h2 he
    rcases h k b h1 with h3 | rfl <;> rcases h j b' h2 with h4 | rfl
    · exact S.own k b j b' h3 h4 he
    · have := S.owns k b h3
      have : b.w = w.cells.length := he
      omega
    · have := S.owns j b' h4
      have : w.cells.length = b'.w := he
      omega
    · exact one k j h1 h2
  · intro k b hb hf
    rcases h k b hb with h | rfl
    · exact S.free k b h hf
    · intro hx
      exact Nat.lt_irrefl _ (S.nodes _ hx)
  · intro x hx
    have := S.nodes x hx
    simp only [List.length_append, List.length_singleton]
    omega

theorem safe_step {w : World} (S : Safe w) (a : Act) : Safe (step a w).1 := by
  cases a with
  | alloc bs spare =>
    exact safe_hold (safe_more S (bs ++ spare)) (by simp)
  | reslice h lo hi =>
    simp only [step]
    split
    · exact S
    · rename_i s hs
      split
      · exact safe_hold S (S.held h s hs)
      · exact S
  | poke h i c =>
    simp only [step]
    split
    · exact S
    · split
      · exact ⟨by simpa using S.zero, fun h s e => by simpa using S.held h s e, fun x => by simpa using S.cells x,
          S.owns, S.own, S.free, S.nodes⟩
      · exact S
  | newBuilder =>
    refine safe_builders S _ (fun k b hb => ?_) (fun k j h1 h2 => ?_)
    · rcases getElem?_snoc _ _ _ _ hb with h | ⟨-, rfl⟩
      · exact .inl h
      · exact .inr rfl
    · rcases getElem?_snoc _ _ _ _ h1 with h1 | ⟨e1, -⟩
      · exact absurd (S.owns _ _ h1) (Nat.lt_irrefl _)
      · rcases getElem?_snoc _ _ _ _ h2 with h2 | ⟨e2, -⟩
        · exact absurd (S.owns _ _ h2) (Nat.lt_irrefl _)
        · omega
  | reset k =>
    simp only [step]
    split
    · exact S
    · refine safe_builders S _ (fun k b hb => ?_) (fun k j h1 h2 => ?_)
      · rcases getElem?_put _ _ _ _ _ hb with ⟨-, h⟩ | ⟨-, rfl⟩
        · exact .inl h
        · exact .inr rfl
      · rcases getElem?_put _ _ _ _ _ h1 with ⟨-, h1⟩ | ⟨e1, -⟩
        · exact absurd (S.owns _ _ h1) (Nat.lt_irrefl _)
        · rcases getElem?_put _ _ _ _ _ h2 with ⟨-, h2⟩ | ⟨e2, -⟩
          · exact absurd (S.owns _ _ h2) (Nat.lt_irrefl _)
          · omega
  | assignBytes k h =>
    simp only [step]
    split
    · exact S
    · rename_i s hs
      exact safe_assign S k (S.held h s hs)
  | assignNode k n =>
    simp only [step]
    split
    · exact S
    · exact safe_assign S k (S.cells _)
  | assignNull k =>
    simp only [step]
    split
    · exact S
    · split <;> exact S
  | assignOther k =>
    simp only [step]
    split <;> exact S
  | build k =>
    simp only [step]
    split
    · exact S
    · rename_i b hb
      split
      · rename_i hd
        refine ⟨S.zero, S.held, S.cells, S.owns, S.own, ?_, ?_⟩
        · intro j b' h hf hx
          rcases List.mem_append.1 hx with hx | hx
          · exact S.free j b' h hf hx
          · have he := List.mem_singleton.1 hx
            have := S.own j b' k b h hb he
            subst this
            rw [hb] at h
            cases h
            rw [hd] at hf
            cases hf
        · intro x hx
          rcases List.mem_append.1 hx with hx | hx
          · exact S.nodes x hx
          · rw [List.mem_singleton.1 hx]; exact S.owns k b hb
      · exact S
  | fromBytes h =>
    simp only [step]
    split
    · exact S
    · rename_i s hs
      refine ⟨S.zero, S.held, safe_cell S (S.held h s hs), ?_, S.own, ?_, ?_⟩
      · intro k b hb
        have := S.owns k b hb
        simp only [List.length_append, List.length_singleton]
        omega
      · intro k b hb hf hx
        rcases List.mem_append.1 hx with hx | hx
        · exact S.free k b hb hf hx
        · have := S.owns k b hb
          have := List.mem_singleton.1 hx
          omega
      · intro x hx
        simp only [List.length_append, List.length_singleton]
        rcases List.mem_append.1 hx with hx | hx
        · have := S.nodes x hx; omega
        · have := List.mem_singleton.1 hx; omega
  | asBytes n =>
    simp only [step]
    split
    · exact S
    · exact safe_hold S (S.cells _)
  | decode k s spare =>
    simp only [step]
    split
    · exact S
    · split
      · exact S
      · exact S
      · exact safe_assign (safe_more S _) k (by simp)

theorem safe_play (as : List Act) {w : World} (S : Safe w) : Safe (play as w) := by
  induction as generalizing w with
  | nil => exact S
  | cons a as ih => exact ih (safe_step S a)

/-! ### What stays -/

/-- Nodes keep their slices. -/
theorem assign_keeps {w : World} (S : Safe w) (k : Nat) (s : Slice) (x : Nat) (hx : x ∈ w.nodes) :
    (assign k s w).1.cells.getD x nil = w.cells.getD x nil := by
  unfold assign
  split
  · rfl
  · rename_i b hb
    split
    · rfl
    · rename_i hd
      simp only
      rw [getD_set, if_neg]
      rintro ⟨rfl, -⟩
      exact S.free k b hb (by simpa using hd) hx

theorem append_keeps {w : World} (S : Safe w) (s : Slice) (x : Nat) (hx : x ∈ w.nodes) :
    (w.cells ++ [s]).getD x nil = w.cells.getD x nil := by
  rw [getD_append, if_neg]
  have := S.nodes x hx
  omega

theorem step_keeps {w : World} (S : Safe w) (a : Act) (x : Nat) (hx : x ∈ w.nodes) :
    (step a w).1.cells.getD x nil = w.cells.getD x nil := by
  cases a with
  | alloc => rfl
  | reslice => simp only [step]; split <;> (try split) <;> rfl
  | poke => simp only [step]; split <;> (try split) <;> rfl
  | newBuilder => exact append_keeps S _ x hx
  | reset =>
    simp only [step]
    split
    · rfl
    · exact append_keeps S _ x hx
  | assignBytes k h =>
    simp only [step]
    split
    · rfl
    · exact assign_keeps S k _ x hx
  | assignNode k n =>
    simp only [step]
    split
    · rfl
    · exact assign_keeps S k _ x hx
  | assignNull => simp only [step]; split <;> (try split) <;> rfl
  | assignOther => simp only [step]; split <;> rfl
  | build => simp only [step]; split <;> (try split) <;> rfl
  | fromBytes =>
    simp only [step]
    split
    · rfl
    · exact append_keeps S _ x hx
  | asBytes => simp only [step]; split <;> rfl
  | decode k s spare =>
    simp only [step]
    split
    · rfl
    · split
      · rfl
      · rfl
      · exact assign_keeps (safe_more S _) k _ x hx

theorem assign_nodes (k : Nat) (s : Slice) (w : World) : (assign k s w).1.nodes = w.nodes := by
  unfold assign
  split
  · rfl
  · split <;> rfl

theorem assign_arrays (k : Nat) (s : Slice) (w : World) : (assign k s w).1.arrays = w.arrays := by
  unfold assign
  split
  · rfl
  · split <;> rfl

theorem assign_held (k : Nat) (s : Slice) (w : World) : (assign k s w).1.held = w.held := by
  unfold assign
  split
  · rfl
  · split <;> rfl

/-- Nodes stay nodes. -/
theorem step_nodes (a : Act) (w : World) (x : Nat) (hx : x ∈ w.nodes) : x ∈ (step a w).1.nodes := by
  cases a with
  | alloc => exact hx
  | reslice => simp only [step]; split <;> (try split) <;> exact hx
  | poke => simp only [step]; split <;> (try split) <;> exact hx
  | newBuilder => exact hx
  | reset => simp only [step]; split <;> exact hx
  | assignBytes => simp only [step]; split <;> simp only [assign_nodes] <;> exact hx
  | assignNode => simp only [step]; split <;> simp only [assign_nodes] <;> exact hx
  | assignNull => simp only [step]; split <;> (try split) <;> exact hx
  | assignOther => simp only [step]; split <;> exact hx
  | build =>
    simp only [step]
    split
    · exact hx
    · split
      · exact List.mem_append_left _ hx
      · exact hx
  | fromBytes =>
    simp only [step]
    split
    · exact hx
    · exact List.mem_append_left _ hx
  | asBytes => simp only [step]; split <;> exact hx
  | decode =>
    simp only [step]
    split
    · exact hx
    · split
      · exact hx
      · exact hx
      · rw [assign_nodes]; exact hx

/-- Only writing changes an array. -/
theorem step_arrays (a : Act) (w : World) (A : Nat) (hA : A < w.arrays.length)
    (ha : ∀ h i c, a ≠ .poke h i c) : (step a w).1.arrays.getD A [] = w.arrays.getD A [] := by
  have app : ∀ x, (w.arrays ++ [x]).getD A [] = w.arrays.getD A [] := fun x => by
    rw [List.getD_eq_getElem?_getD, List.getD_eq_getElem?_getD, List.getElem?_append_left hA]
  cases a with
  | alloc => exact app _
  | reslice => simp only [step]; split <;> (try split) <;> rfl
  | poke h i c => exact absurd rfl (ha h i c)
  | newBuilder => rfl
  | reset => simp only [step]; split <;> rfl
  | assignBytes => simp only [step]; split <;> simp only [assign_arrays]
  | assignNode => simp only [step]; split <;> simp only [assign_arrays]
  | assignNull => simp only [step]; split <;> (try split) <;> rfl
  | assignOther => simp only [step]; split <;> rfl
  | build => simp only [step]; split <;> (try split) <;> rfl
  | fromBytes => simp only [step]; split <;> rfl
  | asBytes => simp only [step]; split <;> rfl
  | decode =>
    simp only [step]
    split
    · rfl
    · split
      · rfl
      · rfl
      · rw [assign_arrays]; exact app _

theorem set_drop_take (l : Bytes) (p : Nat) (c : UInt8) (off len : Nat) :
    ((l.set p c).drop off).take len =
      if off ≤ p ∧ p < off + len then ((l.drop off).take len).set (p - off) c else (l.drop off).take len := by
  apply List.ext_getElem?
  intro j
  split
  · rename_i h
    rw [List.getElem?_take, List.getElem?_drop, List.getElem?_set, List.getElem?_set, List.getElem?_take,
      List.getElem?_drop]
    by_cases hj : j < len
    · simp only [if_pos hj, List.length_take, List.length_drop]
      by_cases hp : p = off + j
      · rw [if_pos hp, if_pos (show p - off = j by omega)]
        by_cases hl : p < l.length
        · rw [if_pos (by omega), if_pos (by omega)]
        · rw [if_neg (by omega), if_neg (by omega)]
      · rw [if_neg hp, if_neg (by omega)]
    · simp only [if_neg hj]
      rw [if_neg (by omega)]
  · rename_i h
    rw [List.getElem?_take, List.getElem?_drop, List.getElem?_set, List.getElem?_take, List.getElem?_drop]
    by_cases hj : j < len
    · simp only [if_pos hj]
      rw [if_neg (by omega)]
    · simp only [if_neg hj]

/-- What writing does to any slice. -/
theorem poke_bytes (w : World) (h i : Nat) (c : UInt8) (s : Slice) (hs : w.held[h]? = some s) (hi : i < s.len)
    (t : Slice) : (step (.poke h i c) w).1.bytes t =
      if Reaches s i t then (w.bytes t).set (s.off + i - t.off) c else w.bytes t := by
  simp only [step, hs, if_pos hi, World.bytes]
  by_cases he : s.arr = t.arr
  · rw [he]
    have : (w.arrays.modify t.arr (fun x => x.set (s.off + i) c)).getD t.arr [] =
        (w.arrays.getD t.arr []).set (s.off + i) c := by
      rw [List.getD_eq_getElem?_getD, List.getD_eq_getElem?_getD, List.getElem?_modify]
      simp only [if_true]
      cases w.arrays[t.arr]? <;> simp
    rw [this, set_drop_take]
    by_cases hr : t.off ≤ s.off + i ∧ s.off + i < t.off + t.len
    · rw [if_pos hr, if_pos ⟨he, hr⟩]
    · rw [if_neg hr, if_neg (fun h => hr h.2)]
  · have : (w.arrays.modify s.arr (fun x => x.set (s.off + i) c)).getD t.arr [] = w.arrays.getD t.arr [] := by
      rw [List.getD_eq_getElem?_getD, List.getD_eq_getElem?_getD, List.getElem?_modify]
      simp only [if_neg he]
      cases w.arrays[t.arr]? <;> simp
    rw [this, if_neg (fun h => he h.1)]

/-! ### Arrays nobody can write to -/

/-- The array `A` holds `d`, the client has no slice of it, and blobs on it have all of
`d`. -/
structure Private (A : Nat) (d spare : Bytes) (w : World) : Prop where
  here : w.arrays[A]? = some (d ++ spare)
  held : ∀ (h : Nat) (s : Slice), w.held[h]? = some s → s.arr ≠ A
  cells : ∀ x, (w.cells.getD x nil).arr = A → w.cells.getD x nil = ⟨A, 0, d.length, (d ++ spare).length⟩

theorem private_content {A : Nat} {d spare : Bytes} {w : World} (P : Private A d spare w) (x : Nat)
    (hx : (w.cells.getD x nil).arr = A) : w.content x = d := by
  unfold World.content World.bytes
  rw [P.cells x hx]
  simp only [List.getD_eq_getElem?_getD, P.here, Option.getD_some, List.drop_zero, List.take_left]

theorem private_assign {A : Nat} {d spare : Bytes} {w : World} (P : Private A d spare w) (k : Nat) (s : Slice)
    (hs : s.arr = A → s = ⟨A, 0, d.length, (d ++ spare).length⟩) : Private A d spare (assign k s w).1 := by
  refine ⟨by rw [assign_arrays]; exact P.here, by rw [assign_held]; exact P.held, ?_⟩
  unfold assign
  split
  · exact P.cells
  · split
    · exact P.cells
    · intro x
      simp only
      rw [getD_set]
      split
      · exact hs
      · exact P.cells x

theorem private_more {A : Nat} {d spare : Bytes} {w : World} (P : Private A d spare w) (bs : Bytes) :
    Private A d spare { w with arrays := w.arrays ++ [bs] } :=
  ⟨by rw [← P.here]; exact List.getElem?_append_left (List.getElem?_eq_some_iff.1 P.here).1, P.held, P.cells⟩

theorem private_append {A : Nat} {d spare : Bytes} {w : World} (P : Private A d spare w) (s : Slice)
    (hs : s.arr = A → s = ⟨A, 0, d.length, (d ++ spare).length⟩) (x : Nat) :
    ((w.cells ++ [s]).getD x nil).arr = A →
      (w.cells ++ [s]).getD x nil = ⟨A, 0, d.length, (d ++ spare).length⟩ := by
  rw [getD_append]
  split
  · exact hs
  · exact P.cells x

theorem private_step {A : Nat} (hA : A ≠ 0) {d spare : Bytes} {w : World} (P : Private A d spare w) (a : Act)
    (ha : ¬ Asks A a w) : Private A d spare (step a w).1 := by
  have hlt : A < w.arrays.length := (List.getElem?_eq_some_iff.1 P.here).1
  have hnil : nil.arr = A → nil = ⟨A, 0, d.length, (d ++ spare).length⟩ := fun h => absurd h.symm hA
  have hold : ∀ s : Slice, s.arr ≠ A → ∀ (h : Nat) (t : Slice), (w.held ++ [s])[h]? = some t → t.arr ≠ A := by
    intro s hs h t e
    rcases getElem?_snoc _ _ _ _ e with e | ⟨-, rfl⟩
    · exact P.held h t e
    · exact hs
  cases a with
  | alloc bs sp =>
    have P' := private_more P (bs ++ sp)
    exact ⟨P'.here, hold ⟨_, _, _, _⟩ (by simp only; omega), P'.cells⟩
  | reslice h lo hi =>
    simp only [step]
    split
    · exact P
    · rename_i s hs
      split
      · exact ⟨P.here, hold ⟨_, _, _, _⟩ (P.held h s hs), P.cells⟩
      · exact P
  | poke h i c =>
    simp only [step]
    split
    · exact P
    · rename_i s hs
      split
      · refine ⟨?_, P.held, P.cells⟩
        simp only
        rw [List.getElem?_modify, P.here]
        simp only [if_neg (P.held h s hs)]
        rfl
      · exact P
  | newBuilder => exact ⟨P.here, P.held, private_append P _ hnil⟩
  | reset k =>
    simp only [step]
    split
    · exact P
    · exact ⟨P.here, P.held, private_append P _ hnil⟩
  | assignBytes k h =>
    simp only [step]
    split
    · exact P
    · rename_i s hs
      exact private_assign P k s fun he => absurd he (P.held h s hs)
  | assignNode k n =>
    simp only [step]
    split
    · exact P
    · exact private_assign P k _ (P.cells _)
  | assignNull k =>
    simp only [step]
    split
    · exact P
    · split <;> exact P
  | assignOther k =>
    simp only [step]
    split <;> exact P
  | build k =>
    simp only [step]
    split
    · exact P
    · split
      · exact ⟨P.here, P.held, P.cells⟩
      · exact P
  | fromBytes h =>
    simp only [step]
    split
    · exact P
    · rename_i s hs
      exact ⟨P.here, P.held, private_append P s fun he => absurd he (P.held h s hs)⟩
  | asBytes n =>
    simp only [step]
    split
    · exact P
    · rename_i x hx
      exact ⟨P.here, hold _ fun he => ha ⟨n, x, rfl, hx, he⟩, P.cells⟩
  | decode k s sp =>
    simp only [step]
    split
    · exact P
    · split
      · exact P
      · exact P
      · exact private_assign (private_more P _) k _ fun he => absurd he (by simp only; omega)

theorem private_play {A : Nat} (hA : A ≠ 0) {d spare : Bytes} (as : List Act) {w : World} (P : Private A d spare w)
    (ha : NeverAsks A as w) : Private A d spare (play as w) := by
  induction as generalizing w with
  | nil => exact P
  | cons a as ih => exact ih (private_step hA P a ha.1) ha.2

end Verif.Blobs
