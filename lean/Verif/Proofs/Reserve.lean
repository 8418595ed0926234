import Verif.Model.Reserve
import Verif.Spec.Reserve
import Verif.Proofs.Bufio
import Verif.Proofs.Num

/-! Lemmas about the buffer of `DecodeBlob`. -/

namespace Verif

open Spec

section

variable {ρ : Type} [Source ρ]

/-! ### The room a buffer offers matters to no other read -/

/-- The same reader, with other amounts of room offered to it. -/
def Bufio.offer (room : Nat → Nat) (b : Bufio ρ) : Bufio ρ := { b with room := room }

theorem fill_offer (room : Nat → Nat) (i : Nat) (b : Bufio ρ) :
    Bufio.fill i (b.offer room) = (Bufio.fill i b).offer room := by
  induction i generalizing b with
  | zero => rfl
  | succ i ih =>
    unfold Bufio.fill
    simp only [show (b.offer room).buf = b.buf from rfl, show (b.offer room).src = b.src from rfl,
      show (b.offer room).size = b.size from rfl]
    cases (Source.read (b.size - b.buf.length) b.src).1.2 with
    | some e => rfl
    | none =>
      simp only
      by_cases h : 0 < (Source.read (b.size - b.buf.length) b.src).1.1.length
      · rw [if_pos h, if_pos h]; rfl
      · rw [if_neg h, if_neg h]
        exact ih { b with buf := _, src := _ }

theorem readSlice_offer (room : Nat → Nat) (d : UInt8) (f : Nat) (b : Bufio ρ) :
    Bufio.readSlice d f (b.offer room) = (Bufio.readSlice d f b >>= fun p => .ok (p.1, p.2.offer room)) := by
  induction f generalizing b with
  | zero => rfl
  | succ f ih =>
    unfold Bufio.readSlice
    simp only [show (b.offer room).buf = b.buf from rfl, show (b.offer room).err = b.err from rfl,
      show (b.offer room).size = b.size from rfl]
    split
    · rfl
    · split
      · rfl
      · split
        · rfl
        · rw [fill_offer]; exact ih _

theorem readString_offer (room : Nat → Nat) (d : UInt8) (f : Nat) (acc : Bytes) (b : Bufio ρ) :
    Bufio.readString d f acc (b.offer room) =
      (Bufio.readString d f acc b >>= fun p => .ok (p.1, p.2.offer room)) := by
  induction f generalizing acc b with
  | zero => rfl
  | succ f ih =>
    unfold Bufio.readString
    rw [show (b.offer room).size = b.size from rfl, readSlice_offer]
    cases h : Bufio.readSlice d (b.size + 2) b with
    | err e => rfl
    | panic => rfl
    | ok p =>
      obtain ⟨⟨line, e⟩, b'⟩ := p
      simp only [Res.bind_ok]
      cases e with
      | found => rfl
      | err e => rfl
      | full => exact ih _ _

theorem readNum_offer (room : Nat → Nat) (b : Bufio ρ) :
    readNum (b.offer room) = (readNum b >>= fun p => .ok (p.1, p.2.offer room)) := by
  unfold readNum
  show (Bufio.readString NUL (b.left + 2) [] (b.offer room) >>= _) = _
  rw [readString_offer]
  show _ = ((Bufio.readString NUL (b.left + 2) [] b >>= _) >>= _)
  cases Bufio.readString NUL (b.left + 2) [] b with
  | err e => rfl
  | panic => rfl
  | ok p =>
    simp only [Res.bind_ok]
    cases chop p.1 with
    | err e => rfl
    | panic => rfl
    | ok l =>
      simp only [Res.bind_ok]
      cases atoi l with
      | err e => rfl
      | panic => rfl
      | ok n => rfl

theorem read_offer (room : Nat → Nat) (k : Nat) (b : Bufio ρ) :
    Bufio.read k (b.offer room) = ((Bufio.read k b).1, (Bufio.read k b).2.offer room) := by
  unfold Bufio.read
  simp only [show (b.offer room).buf = b.buf from rfl, show (b.offer room).err = b.err from rfl,
    show (b.offer room).size = b.size from rfl, show (b.offer room).src = b.src from rfl]
  split
  · split
    · rfl
    · split
      · rfl
      · split <;> rfl
  · rfl

/-- Only the room offered from now on matters. -/
theorem readLimited_offer (room room' : Nat → Nat) (n f : Nat) (acc : Bytes) (b : Bufio ρ)
    (h : ∀ k, acc.length ≤ k → room k = room' k) :
    (Bufio.readLimited n f acc (b.offer room) >>= fun p => .ok (p.1, p.2.offer room')) =
      Bufio.readLimited n f acc (b.offer room') := by
  induction f generalizing acc b with
  | zero => rfl
  | succ f ih =>
    unfold Bufio.readLimited
    split
    · rfl
    · simp only [show (b.offer room).room = room from rfl, show (b.offer room').room = room' from rfl,
        h _ (Nat.le_refl _), read_offer]
      split
      · split <;> rfl
      · exact ih _ _ fun k hk => h k (by rw [List.length_append] at hk; omega)

/-! ### Growing -/

theorem grow_data (round : Nat → Nat) (n : Nat) (u : Buf) : (u.grow round n).data = u.data := by
  unfold Buf.grow
  split
  · rfl
  · split <;> rfl

theorem grow_room {round : Nat → Nat} (S : Sizes round) (n : Nat) (u : Buf) (h : u.cap = 0 → u.data = []) :
    u.data.length + n ≤ (u.grow round n).cap := by
  unfold Buf.grow
  split
  · assumption
  · split
    · rename_i h1
      rw [h h1.1]
      simp; omega
    · have := S.enough (max (u.data.length + n) (2 * u.cap))
      simp only
      omega

theorem grow_again {round : Nat → Nat} (S : Sizes round) (n : Nat) (u : Buf) (h : u.cap = 0 → u.data = []) :
    (u.grow round n).grow round n = u.grow round n := by
  have := grow_room S n u h
  rw [Buf.grow, if_pos (by rw [grow_data]; exact this)]

/-- What holds of the buffer at any time. -/
structure Modest (u : Buf) : Prop where
  each : ∀ a ∈ u.made, a ≤ 4 * (u.data.length + 512)
  last : u.cap ≤ 4 * (u.data.length + 512)
  all : u.made.sum ≤ 2 * u.cap

theorem modest_more {u : Buf} (m : Modest u) (x : Bytes) : Modest { u with data := u.data ++ x } :=
  ⟨fun a ha => Nat.le_trans (m.each a ha) (by rw [List.length_append]; omega),
    Nat.le_trans m.last (by rw [List.length_append]; omega), m.all⟩

theorem modest_grow {round : Nat → Nat} (S : Sizes round) {u : Buf} (m : Modest u) {n : Nat}
    (hn : n = 512 ∨ u.cap = 0 ∧ n ≤ 64) : Modest (u.grow round n) := by
  unfold Buf.grow
  split
  · exact m
  · rename_i hc
    have ha := m.all
    split
    · rename_i h0
      refine ⟨fun a h => ?_, by simp only; omega, ?_⟩
      · rcases List.mem_cons.1 h with rfl | h
        · simp only; omega
        · exact m.each a h
      · simp only [List.sum_cons]; omega
    · rename_i h0
      have hn : n = 512 := hn.resolve_right h0
      subst hn
      have h1 := S.enough (max (u.data.length + 512) (2 * u.cap))
      have h2 := S.thrifty (max (u.data.length + 512) (2 * u.cap)) (by omega)
      refine ⟨fun a h => ?_, by simp only; omega, ?_⟩
      · rcases List.mem_cons.1 h with rfl | h
        · simp only; omega
        · exact m.each a h
      · simp only [List.sum_cons]; omega

theorem modest_write {round : Nat → Nat} (S : Sizes round) (s : Bytes) (hs : s.length ≤ 64) :
    Modest (Buf.empty.write round s) :=
  modest_more (modest_grow S ⟨by simp [Buf.empty], by simp [Buf.empty], by simp [Buf.empty]⟩
    (.inr ⟨rfl, hs⟩)) s

theorem modest_readFrom {round : Nat → Nat} (S : Sizes round) (f n : Nat) (u : Buf) (b : Bufio ρ) (m : Modest u) :
    Modest (u.readFrom round f n b).1 := by
  induction f generalizing n u b with
  | zero => exact m
  | succ f ih =>
    have m' := modest_grow S m (n := 512) (.inl rfl)
    unfold Buf.readFrom
    simp only
    split
    · exact m'
    · split
      · split <;> exact modest_more m' _
      · exact ih _ _ _ (modest_more m' _)

/-- Reading into the buffer is reading with some amounts of room on offer. -/
theorem readFrom_room {round : Nat → Nat} (S : Sizes round) (pre : Bytes) (n f : Nat) (acc : Bytes) (u : Buf)
    (b : Bufio ρ) (hu : u.data = pre ++ acc) (h0 : u.cap ≠ 0) :
    ∃ room : Nat → Nat,
      room acc.length + 1 = (u.grow round 512).cap - u.data.length ∧
      (∃ more, (u.readFrom round f (n - acc.length) b).1.data = pre ++ acc ++ more) ∧
      Bufio.readLimited n f acc (b.offer room) =
        ((u.readFrom round f (n - acc.length) b).2 >>= fun b' =>
          .ok ((u.readFrom round f (n - acc.length) b).1.data.drop pre.length, b'.offer room)) := by
  have hg := grow_room S 512 u (fun h => absurd h h0)
  induction f generalizing acc u b with
  | zero =>
    exact ⟨fun _ => (u.grow round 512).cap - u.data.length - 1, by dsimp only; omega,
      ⟨[], by simp [Buf.readFrom, hu]⟩, rfl⟩
  | succ f ih =>
    have hd := grow_data round 512 u
    by_cases hn : n ≤ acc.length
    · refine ⟨fun _ => (u.grow round 512).cap - u.data.length - 1, by dsimp only; omega, ?_, ?_⟩
      · simp only [Buf.readFrom]
        rw [if_pos (by omega)]
        exact ⟨[], by simp [hd, hu]⟩
      · simp only [Buf.readFrom, Bufio.readLimited]
        rw [if_pos hn, if_pos (by omega)]
        simp [hd, hu, Res.bind_ok]
    have hcap : (u.grow round 512).cap - (u.grow round 512).data.length =
        (u.grow round 512).cap - u.data.length := by rw [hd]
    cases he : (Bufio.read (min ((u.grow round 512).cap - u.data.length) (n - acc.length)) b).1.2 with
    | some e =>
      refine ⟨fun _ => (u.grow round 512).cap - u.data.length - 1, by dsimp only; omega, ?_, ?_⟩
      · simp only [Buf.readFrom]
        rw [if_neg (by omega), hcap, he]
        simp only
        split <;> exact ⟨_, by rw [hd, hu]⟩
      · simp only [Buf.readFrom, Bufio.readLimited, Bufio.offer]
        rw [if_neg hn, if_neg (by omega), hcap, he,
          show (u.grow round 512).cap - u.data.length - 1 + 1 = (u.grow round 512).cap - u.data.length by omega]
        have := read_offer (fun _ => (u.grow round 512).cap - u.data.length - 1)
          (min ((u.grow round 512).cap - u.data.length) (n - acc.length)) b
        unfold Bufio.offer at this
        rw [this, he]
        simp only
        split
        · simp [hd, hu, Res.bind_ok]
        · rfl
    | none =>
      let x := (Bufio.read (min ((u.grow round 512).cap - u.data.length) (n - acc.length)) b).1.1
      let b' := (Bufio.read (min ((u.grow round 512).cap - u.data.length) (n - acc.length)) b).2
      let u' : Buf := { u.grow round 512 with data := (u.grow round 512).data ++ x }
      have hcap0 : u'.cap ≠ 0 := by
        show (u.grow round 512).cap ≠ 0
        omega
      have hu' : u'.data = pre ++ (acc ++ x) := by
        show (u.grow round 512).data ++ x = _
        rw [hd, hu, List.append_assoc]
      obtain ⟨room, hr, ⟨more, hm⟩, hl⟩ := ih (acc ++ x) u' b' hu' hcap0
        (grow_room S 512 u' (fun h => absurd h hcap0))
      have hrun : u.readFrom round (f + 1) (n - acc.length) b =
          u'.readFrom round f (n - (acc ++ x).length) b' := by
        simp only [Buf.readFrom]
        rw [if_neg (by omega), hcap, he]
        simp only [List.length_append, Nat.sub_sub]
        rfl
      rw [hrun]
      let room' : Nat → Nat := fun k =>
        if k = acc.length then (u.grow round 512).cap - u.data.length - 1 else room k
      refine ⟨room', by simp only [room', if_true]; omega, ⟨x ++ more, by rw [hm]; simp⟩, ?_⟩
      have hsame : ∀ k, (acc ++ x).length ≤ k → room k = room' k := by
        intro k hk
        simp only [room']
        split
        · rename_i hka
          rw [List.length_append] at hk
          have hx : x = [] := List.length_eq_zero_iff.1 (by omega)
          rw [hx, List.append_nil, ← hka] at hr
          have hu2 : u' = u.grow round 512 := by
            simp only [u', hx, List.append_nil]
          rw [hu2, grow_again S 512 u (fun h => absurd h h0), hd] at hr
          omega
        · rfl
      have hstep : Bufio.readLimited n (f + 1) acc (b.offer room') =
          Bufio.readLimited n f (acc ++ x) (b'.offer room') := by
        rw [Bufio.readLimited, if_neg hn]
        simp only [show (b.offer room').room acc.length + 1 = (u.grow round 512).cap - u.data.length by
          simp only [Bufio.offer, room', if_true]; omega, read_offer, he]
        rfl
      rw [hstep, ← readLimited_offer room room' n f (acc ++ x) b' hsame, hl]
      cases (u'.readFrom round f (n - (acc ++ x).length) b').2 <;> rfl

/-! ### The header -/

theorem value_lower (s : Bytes) (hd : ∀ c ∈ s, Digit c) (hz : s.head? ≠ some 48) (hne : s ≠ []) :
    10 ^ (s.length - 1) ≤ value s := by
  cases s with
  | nil => exact absurd rfl hne
  | cons c cs =>
    have h := hd c (by simp)
    unfold Digit at h
    have h48 : c.toNat ≠ 48 := by
      intro hc
      apply hz
      rw [List.head?_cons]
      congr 1
      exact UInt8.toNat_inj.1 (by simpa using hc)
    simp only [value, List.length_cons, Nat.add_sub_cancel]
    have : 1 * 10 ^ cs.length ≤ (c.toNat - 48) * 10 ^ cs.length := Nat.mul_le_mul_right _ (by omega)
    omega

/-- A number below 2^63 has at most 19 digits. -/
theorem decimal_short (n : Nat) (h : n < 2 ^ 63) : (decimal n).length ≤ 19 := by
  obtain ⟨h1, h2, h3, h4⟩ := decimal_canonical n
  by_cases hz : (decimal n).head? = some 48
  · have := h3 hz; omega
  · have h5 := value_lower _ h2 hz h1
    rw [h4] at h5
    apply Classical.byContradiction
    intro hl
    have : 10 ^ 19 ≤ 10 ^ ((decimal n).length - 1) := Nat.pow_le_pow_right (by omega) (by omega)
    have h6 : (2 : Nat) ^ 63 < 10 ^ 19 := by decide +kernel
    omega

theorem readNum_range {σ : Type} [Reader σ] (s : σ) (n : Int) (t : σ) (h : readNum s = .ok (n, t)) :
    n < 2 ^ 63 := by
  unfold readNum at h
  cases h1 : Reader.readString NUL s with
  | err e => rw [h1] at h; cases h
  | panic => rw [h1] at h; cases h
  | ok p =>
    rw [h1] at h
    simp only [Res.bind_ok] at h
    cases h2 : chop p.1 with
    | err e => rw [h2] at h; cases h
    | panic => rw [h2] at h; cases h
    | ok l =>
      rw [h2] at h
      simp only [Res.bind_ok] at h
      cases h3 : atoi l with
      | err e => rw [h3] at h; cases h
      | panic => rw [h3] at h; cases h
      | ok z =>
        rw [h3] at h
        cases h
        exact ((atoi_iff _ _).1 h3).2.2

end

end Verif
