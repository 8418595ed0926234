import Verif.Proofs.Alias

/-!
# The buffer with its memory refines the buffer of unread bytes
-/

namespace Verif

open Spec

/-- A buffer with memory and the buffer of its unread bytes. -/
structure MemRel {ρ : Type} [Source ρ] (inv : ρ → Prop) (m : MemBuf ρ) (b : Bufio ρ) : Prop where
  ok : inv b.src
  src : m.src = b.src
  err : m.err = b.err
  room : m.room = b.room
  size : m.mem.length = b.size
  pos : 1 ≤ b.size
  rw : m.r ≤ m.w
  wm : m.w ≤ m.mem.length
  buf : m.unread = b.buf
  scr : ∀ x, (m.scribble x).length = x.length

namespace MemBuf

variable {ρ : Type} [Source ρ]

theorem view_length (m : MemBuf ρ) (l : Slice) (h : l.hi ≤ m.mem.length) : (m.view l).length = l.hi - l.lo := by
  simp only [view, List.length_take, List.length_drop]; omega

theorem view_drop (m : MemBuf ρ) (lo hi j : Nat) :
    m.view ⟨lo + j, hi⟩ = (m.view ⟨lo, hi⟩).drop j := by
  simp only [view, List.drop_take, List.drop_drop]
  congr 1; omega

theorem view_take (m : MemBuf ρ) (lo hi hi' : Nat) (h : hi' ≤ hi) :
    m.view ⟨lo, hi'⟩ = (m.view ⟨lo, hi⟩).take (hi' - lo) := by
  simp only [view, List.take_take]
  congr 1; omega

theorem view_dropLast (m : MemBuf ρ) (lo hi : Nat) (h : hi ≤ m.mem.length) :
    m.view ⟨lo, hi - 1⟩ = (m.view ⟨lo, hi⟩).dropLast := by
  rw [view_take m lo hi (hi - 1) (by omega), List.dropLast_eq_take, view_length m _ h]
  congr 1; dsimp only; omega

theorem view_self (m : MemBuf ρ) (w : Nat) : m.view ⟨w, w⟩ = [] := by simp [view]

end MemBuf

section

variable {ρ : Type} [Source ρ] {inv : ρ → Prop}

theorem MemRel.len {m : MemBuf ρ} {b : Bufio ρ} (R : MemRel inv m b) : b.buf.length = m.w - m.r := by
  rw [← R.buf]; exact MemBuf.view_length m _ R.wm

variable (F : Fits ρ inv)
include F

/-- One read into the buffer. -/
theorem readIn_rel (m : MemBuf ρ) (b : Bufio ρ) (R : MemRel inv m b) (h0 : m.r = 0) (hw : m.w < m.mem.length) :
    ∃ m', m.readIn = .ok (((Source.read (b.size - b.buf.length) b.src).1.1.length,
        (Source.read (b.size - b.buf.length) b.src).1.2), m') ∧
      m'.r = 0 ∧ m'.w = m.w + (Source.read (b.size - b.buf.length) b.src).1.1.length ∧
      m'.mem.length = m.mem.length ∧
      MemRel inv m' { b with
        buf := b.buf ++ (Source.read (b.size - b.buf.length) b.src).1.1,
        src := (Source.read (b.size - b.buf.length) b.src).2 } := by
  have hk : b.size - b.buf.length = m.mem.length - m.w := by rw [R.len, R.size, h0]; omega
  have hpos : 0 < m.mem.length - m.w := by omega
  rw [hk, ← R.src]
  have hin : inv m.src := R.src ▸ R.ok
  have hs := F.size _ _ hpos hin
  have hst := F.stays _ _ hpos hin
  unfold MemBuf.readIn
  simp only
  rw [if_neg (by omega)]
  have hlen : (m.mem.take m.w ++ (Source.read (m.mem.length - m.w) m.src).1.1 ++
      m.scribble (m.mem.drop (m.w + (Source.read (m.mem.length - m.w) m.src).1.1.length))).length =
      m.mem.length := by
    simp only [List.length_append, List.length_take, R.scr, List.length_drop]; omega
  refine ⟨_, rfl, h0, rfl, hlen, ⟨hst, rfl, R.err, R.room, hlen.trans R.size, R.pos, ?_, ?_, ?_, R.scr⟩⟩
  · dsimp only; omega
  · dsimp only; rw [hlen]; omega
  · have hb : b.buf = m.mem.take m.w := by
      rw [← R.buf]; simp [MemBuf.unread, MemBuf.view, h0]
    simp only [MemBuf.unread, MemBuf.view, h0, List.drop_zero, Nat.sub_zero, hb]
    rw [List.take_append_of_le_length (by simp; omega), List.take_of_length_le (by simp; omega)]

theorem fillLoop_rel (i : Nat) (m : MemBuf ρ) (b : Bufio ρ) (R : MemRel inv m b) (h0 : m.r = 0)
    (hw : m.w < m.mem.length) :
    ∃ m', MemBuf.fillLoop i m = .ok m' ∧ MemRel inv m' (Bufio.fill i b) := by
  induction i generalizing m b with
  | zero =>
    exact ⟨_, rfl, ⟨R.ok, R.src, rfl, R.room, R.size, R.pos, R.rw, R.wm, R.buf, R.scr⟩⟩
  | succ i ih =>
    obtain ⟨m', h1, h2, h3, h4, R'⟩ := readIn_rel F m b R h0 hw
    unfold MemBuf.fillLoop Bufio.fill
    rw [h1]
    simp only [Res.bind_ok]
    cases he : (Source.read (b.size - b.buf.length) b.src).1.2 with
    | some e =>
      exact ⟨_, rfl, ⟨R'.ok, R'.src, rfl, R'.room, R'.size, R'.pos, R'.rw, R'.wm, R'.buf, R'.scr⟩⟩
    | none =>
      simp only
      split
      · exact ⟨m', rfl, R'⟩
      · rename_i hn
        exact ih m' _ R' h2 (by rw [h3, h4]; omega)

theorem fill_rel (m : MemBuf ρ) (b : Bufio ρ) (R : MemRel inv m b) (hw : m.w - m.r < m.mem.length) :
    ∃ m', m.fill = .ok m' ∧ MemRel inv m' (Bufio.fill 100 b) := by
  unfold MemBuf.fill
  simp only
  split
  · rename_i hr
    have hul : m.unread.length = m.w - m.r := MemBuf.view_length m _ R.wm
    have hlen : (m.unread ++ m.mem.drop m.unread.length).length = m.mem.length := by
      simp only [List.length_append, List.length_drop]; rw [hul]; have := R.wm; omega
    have R' : MemRel inv { m with mem := m.unread ++ m.mem.drop m.unread.length, r := 0, w := m.w - m.r } b := by
      refine ⟨R.ok, R.src, R.err, R.room, hlen.trans R.size, R.pos, by simp, ?_, ?_, R.scr⟩
      · dsimp only; rw [hlen]; have := R.wm; omega
      · rw [← R.buf]
        show ((m.unread ++ m.mem.drop m.unread.length).drop 0).take (m.w - m.r - 0) = m.unread
        rw [List.drop_zero, Nat.sub_zero, ← hul, List.take_left]
    rw [if_neg (by dsimp only; omega)]
    exact fillLoop_rel F 100 _ b R' rfl (by dsimp only; omega)
  · rename_i hr
    rw [if_neg (by omega)]
    exact fillLoop_rel F 100 m b R (by omega) (by omega)

/-- What `ReadSlice` returns, in memory and as bytes. -/
structure SliceRel (inv : ρ → Prop) (l : Slice) (e : Bufio.End) (m : MemBuf ρ) (line : Bytes) (b : Bufio ρ) :
    Prop where
  rel : MemRel inv m b
  view : m.view l = line
  le : l.lo ≤ l.hi
  hi : l.hi ≤ m.mem.length
  full : e = .full → l = ⟨0, m.mem.length⟩ ∧ m.r = m.mem.length ∧ m.w = m.mem.length ∧ b.buf = []

omit F in
theorem splitAt_length {d : UInt8} {l x y : Bytes} (h : splitAt d l = some (x, y)) : l = x ++ d :: y := by
  induction l generalizing x with
  | nil => simp [splitAt] at h
  | cons c cs ih =>
    unfold splitAt at h
    split at h
    · rename_i hc
      simp only [Option.some.injEq, Prod.mk.injEq] at h
      rw [← h.1, ← h.2, hc]; rfl
    · split at h
      · rename_i a b hs
        simp only [Option.some.injEq, Prod.mk.injEq] at h
        obtain ⟨rfl, rfl⟩ := h
        rw [ih hs]; rfl
      · simp at h

theorem readSlice_rel (d : UInt8) (f : Nat) (m : MemBuf ρ) (b : Bufio ρ) (R : MemRel inv m b) :
    (∃ l e m' line b', MemBuf.readSlice d f m = .ok ((l, e), m') ∧ Bufio.readSlice d f b = .ok ((line, e), b') ∧
      SliceRel inv l e m' line b') ∨
    (MemBuf.readSlice d f m = .err .fuel ∧ Bufio.readSlice d f b = .err .fuel) := by
  induction f generalizing m b with
  | zero => exact .inr ⟨rfl, rfl⟩
  | succ f ih =>
    unfold MemBuf.readSlice Bufio.readSlice
    rw [R.buf]
    cases hs : splitAt d b.buf with
    | some p =>
      obtain ⟨x, y⟩ := p
      have hb := splitAt_length hs
      have hl := R.len
      have hl2 : b.buf.length = x.length + 1 + y.length := by rw [hb]; simp; omega
      have h1 := R.wm
      have h2 := R.rw
      refine .inl ⟨_, _, _, _, _, rfl, rfl, ⟨⟨R.ok, R.src, R.err, R.room, R.size, R.pos, ?_, R.wm, ?_, R.scr⟩,
        ?_, ?_, ?_, ?_⟩⟩
      · dsimp only; omega
      · show MemBuf.view m ⟨m.r + x.length + 1, m.w⟩ = y
        rw [Nat.add_assoc, MemBuf.view_drop]
        have : m.view ⟨m.r, m.w⟩ = b.buf := R.buf
        rw [this, hb]
        simp
      · show MemBuf.view m ⟨m.r, m.r + x.length + 1⟩ = x ++ [d]
        rw [MemBuf.view_take m m.r m.w _ (by omega)]
        have : m.view ⟨m.r, m.w⟩ = b.buf := R.buf
        rw [this, hb]
        have : m.r + x.length + 1 - m.r = (x ++ [d]).length := by simp; omega
        rw [this, show x ++ d :: y = (x ++ [d]) ++ y by simp, List.take_left]
      · dsimp only; omega
      · dsimp only; omega
      · intro h; simp at h
    | none =>
      simp only
      rw [R.err]
      cases he : b.err with
      | some e =>
        refine .inl ⟨_, _, _, _, _, rfl, rfl, ⟨⟨R.ok, R.src, rfl, R.room, R.size, R.pos, Nat.le_refl _, R.wm, ?_, R.scr⟩,
          R.buf, R.rw, R.wm, ?_⟩⟩
        · exact MemBuf.view_self m m.w
        · intro h; simp at h
      | none =>
        simp only
        have hl := R.len
        have h1 := R.wm
        have h2 := R.rw
        have hsz := R.size
        have hp := R.pos
        by_cases hf : m.mem.length ≤ m.w - m.r
        · rw [if_pos hf, if_pos (by omega)]
          have hr0 : m.r = 0 := by omega
          have hwl : m.w = m.mem.length := by omega
          refine .inl ⟨_, _, _, _, _, rfl, rfl, ⟨⟨R.ok, R.src, rfl, R.room, R.size, R.pos, Nat.le_refl _, R.wm,
            ?_, R.scr⟩, ?_, Nat.zero_le _, Nat.le_refl _, ?_⟩⟩
          · exact MemBuf.view_self m m.w
          · show MemBuf.view m ⟨0, m.mem.length⟩ = b.buf
            rw [← R.buf, MemBuf.unread, hr0, hwl]
          · intro _; exact ⟨rfl, hwl, hwl, rfl⟩
        · rw [if_neg hf, if_neg (by omega)]
          obtain ⟨m', h3, R'⟩ := fill_rel F m b R (by omega)
          rw [h3]
          exact ih m' _ R'

theorem readLine_rel (m : MemBuf ρ) (b : Bufio ρ) (R : MemRel inv m b) :
    RelRes (MemRel inv) (Reader.readLine m) (Reader.readLine b) := by
  show RelRes (MemRel inv) (m.readSliceLine >>= fun p => .ok (p.2.view p.1, p.2)) b.readLine
  unfold MemBuf.readSliceLine Bufio.readLine
  rw [R.size]
  rcases readSlice_rel F LF (b.size + 2) m b R with ⟨l, e, m', line, b', h1, h2, S⟩ | ⟨h1, h2⟩
  · rw [h1, h2]
    simp only [Res.bind_ok]
    have hv := S.view
    have hlen : line.length = l.hi - l.lo := by rw [← hv]; exact MemBuf.view_length _ _ S.hi
    cases e with
    | full =>
      obtain ⟨hl, hr, hw, hbuf⟩ := S.full rfl
      have hpos : 1 ≤ m'.mem.length := by rw [S.rel.size]; exact S.rel.pos
      simp only
      rw [hv]
      split
      · rename_i hcr
        rw [if_neg (by omega)]
        simp only [Res.bind_ok]
        refine ⟨?_, ⟨S.rel.ok, S.rel.src, S.rel.err, S.rel.room, S.rel.size, S.rel.pos, ?_, S.rel.wm, ?_, S.rel.scr⟩⟩
        · show m'.view ⟨l.lo, l.hi - 1⟩ = line.dropLast
          rw [MemBuf.view_dropLast _ _ _ S.hi, ← hv]
        · dsimp only; omega
        · show m'.view ⟨m'.r - 1, m'.w⟩ = CR :: b'.buf
          rw [hbuf, hr, hw]
          have h3 : m'.view ⟨m'.mem.length - 1, m'.mem.length⟩ =
              (m'.view ⟨0, m'.mem.length⟩).drop (m'.mem.length - 1) := by
            have := MemBuf.view_drop m' 0 m'.mem.length (m'.mem.length - 1)
            rw [Nat.zero_add] at this
            exact this
          rw [h3]
          have h4 : m'.view ⟨0, m'.mem.length⟩ = line := by rw [← hv, hl]
          rw [h4]
          have h5 : line.length = m'.mem.length := by rw [hlen, hl]; simp
          obtain ⟨ys, rfl⟩ := List.getLast?_eq_some_iff.1 hcr
          have : m'.mem.length - 1 = ys.length := by simp at h5; omega
          rw [this]; simp
      · simp only [Res.bind_ok]
        exact ⟨hv, S.rel⟩
    | err e =>
      simp only
      rw [hlen]
      split
      · rfl
      · exact ⟨hv, S.rel⟩
    | found =>
      simp only
      rw [hv]
      split
      · rw [hlen, MemBuf.view_dropLast _ _ _ S.hi]
        rw [show m'.view ⟨l.lo, l.hi⟩ = line from hv]
        split
        · simp only [Res.bind_ok]
          refine ⟨?_, S.rel⟩
          show m'.view ⟨l.lo, l.hi - 2⟩ = line.dropLast.dropLast
          rw [show l.hi - 2 = (l.hi - 1) - 1 by omega,
            MemBuf.view_dropLast _ _ _ (Nat.le_trans (Nat.sub_le _ _) S.hi), MemBuf.view_dropLast _ _ _ S.hi,
            show m'.view ⟨l.lo, l.hi⟩ = line from hv]
        · simp only [Res.bind_ok]
          refine ⟨?_, S.rel⟩
          show m'.view ⟨l.lo, l.hi - 1⟩ = line.dropLast
          rw [MemBuf.view_dropLast _ _ _ S.hi, show m'.view ⟨l.lo, l.hi⟩ = line from hv]
      · exact ⟨hv, S.rel⟩
  · rw [h1, h2]; exact rfl

theorem readString_rel (d : UInt8) (f : Nat) (acc : Bytes) (m : MemBuf ρ) (b : Bufio ρ) (R : MemRel inv m b) :
    RelRes (MemRel inv) (MemBuf.readString d f acc m) (Bufio.readString d f acc b) := by
  induction f generalizing acc m b with
  | zero => exact rfl
  | succ f ih =>
    unfold MemBuf.readString Bufio.readString
    rw [R.size]
    rcases readSlice_rel F d (b.size + 2) m b R with ⟨l, e, m', line, b', h1, h2, S⟩ | ⟨h1, h2⟩
    · rw [h1, h2]
      simp only [Res.bind_ok]
      cases e with
      | found => exact ⟨by rw [S.view], S.rel⟩
      | err e => exact rfl
      | full => simp only; rw [S.view]; exact ih _ _ _ S.rel
    · rw [h1, h2]; exact rfl

theorem read_rel (k : Nat) (hk : 0 < k) (m : MemBuf ρ) (b : Bufio ρ) (R : MemRel inv m b) :
    ∃ m', MemBuf.read k m = .ok ((Bufio.read k b).1, m') ∧ MemRel inv m' (Bufio.read k b).2 := by
  have hl := R.len
  have h1 := R.wm
  have h2 := R.rw
  have hp := R.pos
  have hz := R.size
  unfold MemBuf.read Bufio.read
  by_cases hrw : m.r = m.w
  · have hb : b.buf = [] := by
      rw [← R.buf, MemBuf.unread, hrw, MemBuf.view_self]
    rw [if_pos hrw, if_pos hb, R.err]
    cases he : b.err with
    | some e =>
      exact ⟨_, rfl, ⟨R.ok, R.src, rfl, R.room, R.size, R.pos, R.rw, R.wm, R.buf, R.scr⟩⟩
    | none =>
      simp only
      rw [R.size]
      split
      · rename_i hks
        rw [R.src]
        exact ⟨_, rfl, ⟨F.stays _ _ hk R.ok, rfl, rfl, R.room, R.size, R.pos, R.rw, R.wm, R.buf, R.scr⟩⟩
      · rename_i hks
        have R0 : MemRel inv { m with r := 0, w := 0, err := none } b :=
          ⟨R.ok, R.src, he.symm, R.room, R.size, R.pos, Nat.le_refl _, Nat.zero_le _, by rw [hb]; rfl, R.scr⟩
        obtain ⟨m', h3, h4, h5, h6, R'⟩ := readIn_rel F _ b R0 rfl (by dsimp only; omega)
        rw [h3]
        rw [hb, List.length_nil, Nat.sub_zero] at h5 R' ⊢
        simp only [Res.bind_ok, List.nil_append] at R' ⊢
        have hu : m'.unread = (Source.read b.size b.src).1.1 := R'.buf
        by_cases hn : (Source.read b.size b.src).1.1 = []
        · rw [if_pos (by simp [hn]), if_pos hn]
          refine ⟨m', rfl, ⟨R'.ok, R'.src, ?_, R'.room, R'.size, R'.pos, R'.rw, R'.wm, ?_, R'.scr⟩⟩
          · rw [R'.err]; exact he
          · rw [R'.buf, hn]
        · have : (Source.read b.size b.src).1.1.length ≠ 0 := by simpa using hn
          rw [if_neg this, if_neg hn]
          refine ⟨{ m' with r := m'.r + (m'.unread.take k).length, err := (Source.read b.size b.src).1.2 },
            by rw [hu], ⟨R'.ok, R'.src, rfl, R'.room, R'.size, R'.pos, ?_, R'.wm, ?_, R'.scr⟩⟩
          · have := R'.len
            dsimp only at this ⊢
            rw [List.length_take, hu, this]
            have := R'.rw
            omega
          · show MemBuf.view m' ⟨m'.r + (List.take k m'.unread).length, m'.w⟩ = (Source.read b.size b.src).1.1.drop k
            rw [MemBuf.view_drop]
            rw [show m'.view ⟨m'.r, m'.w⟩ = _ from hu, hu]
            simp only [List.length_take]
            by_cases hkk : k ≤ (Source.read b.size b.src).1.1.length
            · rw [Nat.min_eq_left hkk]
            · rw [Nat.min_eq_right (by omega), List.drop_length, List.drop_eq_nil_of_le (by omega)]
  · have hb : b.buf ≠ [] := by
      intro h
      rw [h] at hl
      simp at hl
      omega
    rw [if_neg hrw, if_neg hb]
    refine ⟨{ m with r := m.r + (m.unread.take k).length }, by rw [R.buf], ⟨R.ok, R.src, R.err, R.room, R.size, R.pos, ?_, R.wm, ?_, R.scr⟩⟩
    · dsimp only
      rw [List.length_take, R.buf, hl]
      omega
    · show MemBuf.view m ⟨m.r + (List.take k m.unread).length, m.w⟩ = b.buf.drop k
      rw [MemBuf.view_drop]
      rw [show m.view ⟨m.r, m.w⟩ = _ from R.buf, R.buf]
      simp only [List.length_take]
      by_cases hkk : k ≤ b.buf.length
      · rw [Nat.min_eq_left hkk]
      · rw [Nat.min_eq_right (by omega), List.drop_length, List.drop_eq_nil_of_le (by omega)]

theorem readAll_rel (f : Nat) (acc : Bytes) (m : MemBuf ρ) (b : Bufio ρ) (R : MemRel inv m b) :
    RelRes (MemRel inv) (MemBuf.readAll f acc m) (Bufio.readAll f acc b) := by
  induction f generalizing acc m b with
  | zero => exact rfl
  | succ f ih =>
    unfold MemBuf.readAll Bufio.readAll
    rw [R.room]
    obtain ⟨m', h1, R'⟩ := read_rel F (b.room acc.length + 1) (by omega) m b R
    rw [h1]
    simp only [Res.bind_ok]
    cases (Bufio.read (b.room acc.length + 1) b).1.2 with
    | some e =>
      simp only
      split
      · exact ⟨rfl, R'⟩
      · exact rfl
    | none => exact ih _ _ _ R'

theorem readFull_rel (n f : Nat) (acc : Bytes) (m : MemBuf ρ) (b : Bufio ρ) (R : MemRel inv m b) :
    RelRes (MemRel inv) (MemBuf.readFull n f acc m) (Bufio.readFull n f acc b) := by
  induction f generalizing acc m b with
  | zero => exact rfl
  | succ f ih =>
    unfold MemBuf.readFull Bufio.readFull
    split
    · exact ⟨rfl, R⟩
    · obtain ⟨m', h1, R'⟩ := read_rel F (n - acc.length) (by omega) m b R
      rw [h1]
      simp only [Res.bind_ok]
      cases (Bufio.read (n - acc.length) b).1.2 with
      | some e =>
        simp only
        split
        · exact ⟨rfl, R'⟩
        · split
          · exact rfl
          · exact rfl
      | none => exact ih _ _ _ R'

theorem readLimited_rel (n f : Nat) (acc : Bytes) (m : MemBuf ρ) (b : Bufio ρ) (R : MemRel inv m b) :
    RelRes (MemRel inv) (MemBuf.readLimited n f acc m) (Bufio.readLimited n f acc b) := by
  induction f generalizing acc m b with
  | zero => exact rfl
  | succ f ih =>
    unfold MemBuf.readLimited Bufio.readLimited
    split
    · exact ⟨rfl, R⟩
    · rw [R.room]
      obtain ⟨m', h1, R'⟩ := read_rel F (min (b.room acc.length + 1) (n - acc.length)) (by omega) m b R
      rw [h1]
      simp only [Res.bind_ok]
      cases (Bufio.read (min (b.room acc.length + 1) (n - acc.length)) b).1.2 with
      | some e =>
        simp only
        split
        · exact ⟨rfl, R'⟩
        · exact rfl
      | none => exact ih _ _ _ R'

theorem memBuf_sim : ReaderSim (σ := MemBuf ρ) (τ := Bufio ρ) (MemRel inv) where
  readString d m b R := by
    have hl : m.left = b.left := by unfold MemBuf.left Bufio.left; rw [R.len, R.src]
    show RelRes _ (MemBuf.readString d (m.left + 2) [] m) (Bufio.readString d (b.left + 2) [] b)
    rw [hl]; exact readString_rel F d _ [] m b R
  readLine m b R := readLine_rel F m b R
  readAll m b R := by
    have hl : m.calls = b.calls := by unfold MemBuf.calls Bufio.calls MemBuf.left Bufio.left; rw [R.len, R.src]
    show RelRes _ (MemBuf.readAll m.calls [] m) (Bufio.readAll b.calls [] b)
    rw [hl]; exact readAll_rel F _ [] m b R
  readFull n m b R := by
    have hl : m.calls = b.calls := by unfold MemBuf.calls Bufio.calls MemBuf.left Bufio.left; rw [R.len, R.src]
    show RelRes _ (MemBuf.readFull n m.calls [] m) (Bufio.readFull n b.calls [] b)
    rw [hl]; exact readFull_rel F n _ [] m b R
  readLimited n m b R := by
    have hl : m.calls = b.calls := by unfold MemBuf.calls Bufio.calls MemBuf.left Bufio.left; rw [R.len, R.src]
    show RelRes _ (MemBuf.readLimited n m.calls [] m) (Bufio.readLimited n b.calls [] b)
    rw [hl]; exact readLimited_rel F n _ [] m b R
  left m b R := by
    show m.left = b.left
    unfold MemBuf.left Bufio.left; rw [R.len, R.src]

end

end Verif
