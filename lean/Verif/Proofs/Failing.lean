import Verif.Model.Decode
import Verif.Spec.Source
import Verif.Proofs.Stream
import Verif.Proofs.Num

/-!
# Readers that never report the end of the stream
-/

namespace Verif

open Spec

/-- The operations that report every error: in the states `R`, with the given bytes
ahead, they hand out the bytes that are ahead and never report EOF. -/
structure Reports (σ : Type) [Reader σ] (R : σ → Bytes → Prop) : Prop where
  string : ∀ d s a x s', R s a → Reader.readString d s = .ok (x, s') →
    ∃ a', R s' a' ∧ a = x ++ a' ∧ ∃ y, x = y ++ [d] ∧ d ∉ y
  stringErr : ∀ d s a, R s a → Reader.readString d s ≠ .err .eof
  all : ∀ s a x, R s a → Reader.readAll s ≠ .ok x
  full : ∀ s a x s', R s a → Reader.readFull 20 s = .ok (x, s') → ∃ a', R s' a'
  fullErr : ∀ s a, R s a → Reader.readFull 20 s ≠ .err .eof
  limited : ∀ n s a x s', R s a → Reader.readLimited n s = .ok (x, s') → ∃ r, a = x ++ r

/-- So does `ReadLine`. -/
structure NoEnd (σ : Type) [Reader σ] (R : σ → Bytes → Prop) : Prop extends Reports σ R where
  line : ∀ s a x s', R s a → Reader.readLine s = .ok (x, s') → ∃ a', R s' a'
  lineErr : ∀ s a, R s a → Reader.readLine s ≠ .err .eof

section

variable {ρ : Type} [Source ρ] {inv : ρ → Prop} {pending : ρ → Bytes} (D : NeverEnds ρ inv pending)

/-- States of the buffered reader over such a reader. -/
structure Going (inv : ρ → Prop) (b : Bufio ρ) : Prop where
  src : inv b.src
  err : b.err ≠ some .eof
  pos : 0 < b.size
  fits : b.buf.length ≤ b.size

/-- What is ahead of the buffered reader. -/
def aheadOf (pending : ρ → Bytes) (b : Bufio ρ) : Bytes := b.buf ++ pending b.src


theorem fill_size (i : Nat) (b : Bufio ρ) : (Bufio.fill i b).size = b.size := by
  induction i generalizing b with
  | zero => rfl
  | succ i ih =>
    unfold Bufio.fill
    dsimp only
    split
    · rfl
    · split
      · rfl
      · exact ih _

theorem readSlice_noErr (d : UInt8) (f : Nat) (b : Bufio ρ) (e : Err) (h : Bufio.readSlice d f b = .err e)
    (hne : e ≠ .fuel) : False := by
  induction f generalizing b with
  | zero => simp [Bufio.readSlice] at h; exact hne h.symm
  | succ f ih =>
    unfold Bufio.readSlice at h
    split at h
    · simp at h
    · split at h
      · simp at h
      · split at h
        · simp at h
        · exact ih _ h

include D

theorem fill_going (i : Nat) (b : Bufio ρ) (g : Going inv b) (he : b.err = none) (hl : b.buf.length < b.size) :
    Going inv (Bufio.fill i b) ∧ aheadOf pending (Bufio.fill i b) = aheadOf pending b := by
  induction i generalizing b with
  | zero => exact ⟨⟨g.src, by simp [Bufio.fill], g.pos, g.fits⟩, rfl⟩
  | succ i ih =>
    have hk : 0 < b.size - b.buf.length := by omega
    have hs := D.size _ _ hk g.src
    have hd := D.data _ _ hk g.src
    have hn := D.noEof _ _ hk g.src
    have hfit : (b.buf ++ (Source.read (b.size - b.buf.length) b.src).1.1).length ≤ b.size := by
      rw [List.length_append]; omega
    unfold Bufio.fill
    dsimp only
    cases hr : (Source.read (b.size - b.buf.length) b.src).1.2 with
    | some e =>
      refine ⟨⟨D.stays _ _ hk g.src, ?_, g.pos, hfit⟩, ?_⟩
      · rw [hr] at hn; exact hn
      · simp only [aheadOf]; rw [hd, List.append_assoc]
    | none =>
      dsimp only
      have g' : Going inv { b with buf := b.buf ++ (Source.read (b.size - b.buf.length) b.src).1.1,
                                   src := (Source.read (b.size - b.buf.length) b.src).2 } :=
        ⟨D.stays _ _ hk g.src, g.err, g.pos, hfit⟩
      have ha : aheadOf pending { b with buf := b.buf ++ (Source.read (b.size - b.buf.length) b.src).1.1,
                                         src := (Source.read (b.size - b.buf.length) b.src).2 } =
          aheadOf pending b := by
        simp only [aheadOf]; rw [hd, List.append_assoc]
      split
      · exact ⟨g', ha⟩
      · rename_i hp
        have hnil : (Source.read (b.size - b.buf.length) b.src).1.1 = [] := by
          cases h : (Source.read (b.size - b.buf.length) b.src).1.1 with
          | nil => rfl
          | cons c cs => rw [h] at hp; simp at hp
        have := ih _ g' he (by dsimp only; rw [hnil, List.append_nil]; exact hl)
        exact ⟨this.1, this.2.trans ha⟩

theorem readSlice_going (d : UInt8) (f : Nat) (b b' : Bufio ρ) (line : Bytes) (e : Bufio.End) (g : Going inv b)
    (h : Bufio.readSlice d f b = .ok ((line, e), b')) :
    Going inv b' ∧ aheadOf pending b = line ++ aheadOf pending b' ∧
      (e = .found → ∃ y, line = y ++ [d] ∧ d ∉ y) ∧ (e = .full → d ∉ line ∧ b'.buf = [] ∧ line.length = b.size) ∧
      b'.size = b.size ∧ e ≠ .err .eof := by
  induction f generalizing b with
  | zero => simp [Bufio.readSlice] at h
  | succ f ih =>
    unfold Bufio.readSlice at h
    cases hsp : splitAt d b.buf with
    | some xy =>
      obtain ⟨x, y⟩ := xy
      obtain ⟨hb, hx⟩ := splitAt_some _ _ _ _ hsp
      rw [hsp] at h
      simp only [Res.ok.injEq, Prod.mk.injEq] at h
      obtain ⟨⟨rfl, rfl⟩, rfl⟩ := h
      have hfits := g.fits
      rw [hb] at hfits
      simp at hfits
      refine ⟨⟨g.src, g.err, g.pos, by dsimp only; omega⟩, by simp [aheadOf, hb], fun _ => ⟨x, rfl, hx⟩, by simp, rfl,
        by simp⟩
    | none =>
      have hnd := (splitAt_none _ _).1 hsp
      rw [hsp] at h
      dsimp only at h
      cases he : b.err with
      | some e' =>
        rw [he] at h
        simp only [Res.ok.injEq, Prod.mk.injEq] at h
        obtain ⟨⟨rfl, rfl⟩, rfl⟩ := h
        have := g.err
        rw [he] at this
        refine ⟨⟨g.src, by simp, g.pos, by simp⟩, by simp [aheadOf], by simp, by simp, rfl, ?_⟩
        intro hh
        cases hh
        exact this rfl
      | none =>
        rw [he] at h
        dsimp only at h
        split at h
        · rename_i hfull
          simp only [Res.ok.injEq, Prod.mk.injEq] at h
          obtain ⟨⟨rfl, rfl⟩, rfl⟩ := h
          have := g.fits
          refine ⟨⟨g.src, by simp, g.pos, by simp⟩, by simp [aheadOf], by simp,
            fun _ => ⟨hnd, rfl, by omega⟩, rfl, by simp⟩
        · rename_i hl
          obtain ⟨g1, ha⟩ := fill_going D 100 b g he (by omega)
          have hsz : (Bufio.fill 100 b).size = b.size := fill_size 100 b
          rw [← ha, ← hsz]
          exact ih _ g1 h

theorem readString_going (d : UInt8) (f : Nat) (acc x : Bytes) (b b' : Bufio ρ) (g : Going inv b)
    (h : Bufio.readString d f acc b = .ok (x, b')) :
    Going inv b' ∧ ∃ y, x = acc ++ (y ++ [d]) ∧ aheadOf pending b = y ++ [d] ++ aheadOf pending b' ∧ d ∉ y := by
  induction f generalizing acc b with
  | zero => simp [Bufio.readString] at h
  | succ f ih =>
    unfold Bufio.readString at h
    obtain ⟨⟨⟨frag, e⟩, b1⟩, h1, h⟩ := Res.bind_eq_ok.1 h
    obtain ⟨g1, ha, hfound, hfull, _, _⟩ := readSlice_going D _ _ _ _ _ _ g h1
    cases e with
    | found =>
      simp only [Res.ok.injEq, Prod.mk.injEq] at h
      obtain ⟨rfl, rfl⟩ := h
      obtain ⟨y, rfl, hy⟩ := hfound rfl
      exact ⟨g1, y, rfl, ha, hy⟩
    | err e => simp at h
    | full =>
      obtain ⟨g2, y, rfl, ha', hy⟩ := ih _ _ g1 h
      refine ⟨g2, frag ++ y, by simp, by rw [ha, ha']; simp, ?_⟩
      simp [(hfull rfl).1, hy]

theorem readString_noEof (d : UInt8) (f : Nat) (acc : Bytes) (b : Bufio ρ) (g : Going inv b) :
    Bufio.readString d f acc b ≠ .err .eof := by
  induction f generalizing acc b with
  | zero => simp [Bufio.readString]
  | succ f ih =>
    intro h
    unfold Bufio.readString at h
    rcases Res.bind_eq_err.1 h with h | ⟨⟨⟨frag, e⟩, b1⟩, h1, h⟩
    · exact readSlice_noErr _ _ _ _ h (by simp)
    · obtain ⟨g1, _, _, _, _, hne⟩ := readSlice_going D _ _ _ _ _ _ g h1
      cases e with
      | found => simp at h
      | err e => simp at h; exact hne (by rw [h])
      | full => exact ih _ _ g1 h

theorem readLine_going (b b' : Bufio ρ) (x : Bytes) (g : Going inv b) (h : Bufio.readLine b = .ok (x, b')) :
    Going inv b' := by
  unfold Bufio.readLine at h
  obtain ⟨⟨⟨line, e⟩, b1⟩, h1, h⟩ := Res.bind_eq_ok.1 h
  obtain ⟨g1, _, _, hfull, hsz, _⟩ := readSlice_going D _ _ _ _ _ _ g h1
  cases e with
  | found =>
    simp only at h
    split at h
    · split at h <;> (simp only [Res.ok.injEq, Prod.mk.injEq] at h; exact h.2 ▸ g1)
    · simp only [Res.ok.injEq, Prod.mk.injEq] at h; exact h.2 ▸ g1
  | err e =>
    simp only at h
    split at h
    · simp at h
    · simp only [Res.ok.injEq, Prod.mk.injEq] at h; exact h.2 ▸ g1
  | full =>
    simp only at h
    split at h
    · simp only [Res.ok.injEq, Prod.mk.injEq] at h
      rw [← h.2]
      refine ⟨g1.src, g1.err, g1.pos, ?_⟩
      have := g1.pos
      simp only [(hfull rfl).2.1, List.length_cons, List.length_nil]
      omega
    · simp only [Res.ok.injEq, Prod.mk.injEq] at h; exact h.2 ▸ g1

theorem readLine_noEof (b : Bufio ρ) (g : Going inv b) : Bufio.readLine b ≠ .err .eof := by
  intro h
  unfold Bufio.readLine at h
  rcases Res.bind_eq_err.1 h with h | ⟨⟨⟨line, e⟩, b1⟩, h1, h⟩
  · exact readSlice_noErr _ _ _ _ h (by simp)
  obtain ⟨g1, _, _, hfull, hsz, hne⟩ := readSlice_going D _ _ _ _ _ _ g h1
  cases e with
  | found => simp only at h; split at h; split at h <;> simp at h; simp at h
  | err e =>
    simp only at h
    split at h
    · simp at h; exact hne (by rw [h])
    · simp at h
  | full => simp only at h; split at h <;> simp at h

theorem read_going (k : Nat) (hk : 0 < k) (b : Bufio ρ) (g : Going inv b) :
    Going inv (Bufio.read k b).2 ∧ aheadOf pending b = (Bufio.read k b).1.1 ++ aheadOf pending (Bufio.read k b).2 ∧
      (Bufio.read k b).1.2 ≠ some .eof := by
  unfold Bufio.read
  split
  · rename_i hb
    cases he : b.err with
    | some e =>
      have := g.err
      rw [he] at this
      exact ⟨⟨g.src, by simp, g.pos, g.fits⟩, rfl, this⟩
    | none =>
      simp only
      split
      · refine ⟨⟨D.stays _ _ hk g.src, by simp, g.pos, g.fits⟩, ?_, D.noEof _ _ hk g.src⟩
        simp only [aheadOf, hb, List.nil_append]
        exact D.data _ _ hk g.src
      · split
        · rename_i hnil
          refine ⟨⟨D.stays _ _ g.pos g.src, by simp, g.pos, g.fits⟩, ?_, D.noEof _ _ g.pos g.src⟩
          have := D.data _ _ g.pos g.src
          rw [hnil] at this
          simpa only [aheadOf, hb, List.nil_append] using this
        · refine ⟨⟨D.stays _ _ g.pos g.src, D.noEof _ _ g.pos g.src, g.pos, ?_⟩, ?_, by simp⟩
          · have := D.size _ _ g.pos g.src
            simp only [List.length_drop]; omega
          · simp only [aheadOf, hb, List.nil_append]
            rw [← List.append_assoc, List.take_append_drop]
            exact D.data _ _ g.pos g.src
  · refine ⟨⟨g.src, g.err, g.pos, ?_⟩, ?_, by simp⟩
    · have := g.fits
      simp only [List.length_drop]; omega
    · simp only [aheadOf]
      rw [← List.append_assoc, List.take_append_drop]

theorem readAll_going (f : Nat) (acc : Bytes) (b : Bufio ρ) (g : Going inv b) (x : Bytes × Bufio ρ) :
    Bufio.readAll f acc b ≠ .ok x := by
  induction f generalizing acc b with
  | zero => simp [Bufio.readAll]
  | succ f ih =>
    unfold Bufio.readAll
    obtain ⟨g1, _, hne⟩ := read_going D (b.room acc.length + 1) (by omega) b g
    dsimp only
    split
    · rename_i e he
      rw [if_neg (by rintro rfl; exact hne he)]
      simp
    · exact ih _ _ g1

theorem readFull_going (n f : Nat) (acc x : Bytes) (b b' : Bufio ρ) (g : Going inv b)
    (h : Bufio.readFull n f acc b = .ok (x, b')) : Going inv b' := by
  induction f generalizing acc b with
  | zero => simp [Bufio.readFull] at h
  | succ f ih =>
    unfold Bufio.readFull at h
    split at h
    · simp only [Res.ok.injEq, Prod.mk.injEq] at h; exact h.2 ▸ g
    · obtain ⟨g1, _, hne⟩ := read_going D (n - acc.length) (by omega) b g
      dsimp only at h
      split at h
      · split at h
        · simp only [Res.ok.injEq, Prod.mk.injEq] at h; exact h.2 ▸ g1
        · split at h <;> simp at h
      · exact ih _ _ g1 h

theorem readFull_noEof (n f : Nat) (acc : Bytes) (b : Bufio ρ) (g : Going inv b) :
    Bufio.readFull n f acc b ≠ .err .eof := by
  induction f generalizing acc b with
  | zero => simp [Bufio.readFull]
  | succ f ih =>
    intro h
    unfold Bufio.readFull at h
    split at h
    · simp at h
    · obtain ⟨g1, _, hne⟩ := read_going D (n - acc.length) (by omega) b g
      dsimp only at h
      split at h
      · rename_i e he
        split at h
        · simp at h
        · split at h
          · simp at h
          · simp at h; exact hne (by rw [he, h])
      · exact ih _ _ g1 h

theorem readLimited_going (n f : Nat) (acc x : Bytes) (b b' : Bufio ρ) (g : Going inv b)
    (h : Bufio.readLimited n f acc b = .ok (x, b')) :
    ∃ y, x = acc ++ y ∧ aheadOf pending b = y ++ aheadOf pending b' := by
  induction f generalizing acc b with
  | zero => simp [Bufio.readLimited] at h
  | succ f ih =>
    unfold Bufio.readLimited at h
    split at h
    · simp only [Res.ok.injEq, Prod.mk.injEq] at h
      exact ⟨[], by simp [h.1], by simp [h.2]⟩
    · obtain ⟨g1, ha, hne⟩ := read_going D (min (b.room acc.length + 1) (n - acc.length)) (by omega) b g
      dsimp only at h
      split at h
      · rename_i e he
        rw [if_neg (by rintro rfl; exact hne he)] at h
        simp at h
      · obtain ⟨y, rfl, ha'⟩ := ih _ _ g1 h
        exact ⟨(Bufio.read (min (b.room acc.length + 1) (n - acc.length)) b).1.1 ++ y, by simp, by rw [ha, ha']; simp⟩

/-- A buffered reader over a reader that never reports EOF never reports it either. -/
theorem bufio_noEnd : NoEnd (Bufio ρ) (fun b a => Going inv b ∧ a = aheadOf pending b) where
  string d s a x s' hi h := by
    obtain ⟨g, y, hx, ha, hy⟩ := readString_going D _ _ _ _ _ _ hi.1 h
    rw [List.nil_append] at hx
    exact ⟨_, ⟨g, rfl⟩, by rw [hx, hi.2]; exact ha, y, hx, hy⟩
  stringErr d s a hi := readString_noEof D _ _ _ _ hi.1
  line s a x s' hi h := ⟨_, readLine_going D _ _ _ hi.1 h, rfl⟩
  lineErr s a hi := readLine_noEof D _ hi.1
  all s a x hi := readAll_going D _ _ _ hi.1 x
  full s a x s' hi h := ⟨_, readFull_going D _ _ _ _ _ _ hi.1 h, rfl⟩
  fullErr s a hi := readFull_noEof D _ _ _ _ hi.1
  limited n s a x s' hi h := by
    obtain ⟨y, hx, ha⟩ := readLimited_going D _ _ _ _ _ _ hi.1 h
    rw [List.nil_append] at hx
    exact ⟨_, by rw [hx, hi.2]; exact ha⟩

end

/-! ## Readers that fail once -/

section

variable {ρ : Type} [Source ρ] {inv : ρ → Prop} {pending : ρ → Bytes} (D : FailsFirst ρ inv pending)

/-- States of the buffered reader with `a` ahead: as long as no error is stored, the
underlying reader has the rest. -/
structure Sound (inv : ρ → Prop) (pending : ρ → Bytes) (b : Bufio ρ) (a : Bytes) : Prop where
  err : b.err ≠ some .eof
  size : 20 < b.size
  fits : b.buf.length ≤ b.size
  rest : ∃ r, a = b.buf ++ r ∧ (b.err = none → inv b.src ∧ r = pending b.src)

include D

theorem fill_sound (i : Nat) (b : Bufio ρ) (a : Bytes) (g : Sound inv pending b a) (he : b.err = none)
    (hl : b.buf.length < b.size) : Sound inv pending (Bufio.fill i b) a := by
  induction i generalizing b with
  | zero =>
    obtain ⟨r, ha, _⟩ := g.rest
    exact ⟨by simp [Bufio.fill], g.size, g.fits, r, ha, by simp [Bufio.fill]⟩
  | succ i ih =>
    obtain ⟨r, ha, hr⟩ := g.rest
    obtain ⟨hi, rfl⟩ := hr he
    have hk : 0 < b.size - b.buf.length := by omega
    have hs := D.size _ _ hk hi
    have hfit : (b.buf ++ (Source.read (b.size - b.buf.length) b.src).1.1).length ≤ b.size := by
      rw [List.length_append]; omega
    unfold Bufio.fill
    dsimp only
    cases hr : (Source.read (b.size - b.buf.length) b.src).1.2 with
    | some e =>
      obtain ⟨hne, ⟨r', hp⟩⟩ := D.error _ _ _ hk hi hr
      exact ⟨by simpa using hne, g.size, hfit, r', by rw [ha, ← hp]; simp, by simp⟩
    | none =>
      dsimp only
      obtain ⟨h1, h2⟩ := D.stays _ _ hk hi hr
      have g' : Sound inv pending { b with buf := b.buf ++ (Source.read (b.size - b.buf.length) b.src).1.1,
                                           src := (Source.read (b.size - b.buf.length) b.src).2 } a :=
        ⟨g.err, g.size, hfit, _, by rw [ha, h2, List.append_assoc], fun _ => ⟨h1, rfl⟩⟩
      split
      · exact g'
      · rename_i hp
        have hnil : (Source.read (b.size - b.buf.length) b.src).1.1 = [] := by
          cases h : (Source.read (b.size - b.buf.length) b.src).1.1 with
          | nil => rfl
          | cons c cs => rw [h] at hp; simp at hp
        exact ih _ g' he (by dsimp only; rw [hnil, List.append_nil]; exact hl)

theorem readSlice_sound (d : UInt8) (f : Nat) (b b' : Bufio ρ) (a line : Bytes) (e : Bufio.End)
    (g : Sound inv pending b a) (h : Bufio.readSlice d f b = .ok ((line, e), b')) :
    (e = .found ∧ ∃ y a', line = y ++ [d] ∧ d ∉ y ∧ a = line ++ a' ∧ Sound inv pending b' a') ∨
    (e = .full ∧ d ∉ line ∧ ∃ a', a = line ++ a' ∧ Sound inv pending b' a') ∨
    ∃ x, e = .err x ∧ x ≠ .eof := by
  induction f generalizing b with
  | zero => simp [Bufio.readSlice] at h
  | succ f ih =>
    obtain ⟨r, ha, hr⟩ := g.rest
    unfold Bufio.readSlice at h
    cases hsp : splitAt d b.buf with
    | some xy =>
      obtain ⟨x, y⟩ := xy
      obtain ⟨hb, hx⟩ := splitAt_some _ _ _ _ hsp
      rw [hsp] at h
      simp only [Res.ok.injEq, Prod.mk.injEq] at h
      obtain ⟨⟨rfl, rfl⟩, rfl⟩ := h
      have hfits := g.fits
      rw [hb] at hfits
      simp at hfits
      exact .inl ⟨rfl, x, y ++ r, rfl, hx, by rw [ha, hb]; simp, g.err, g.size, by dsimp only; omega, r, rfl, hr⟩
    | none =>
      have hnd := (splitAt_none _ _).1 hsp
      rw [hsp] at h
      dsimp only at h
      cases he : b.err with
      | some e' =>
        rw [he] at h
        simp only [Res.ok.injEq, Prod.mk.injEq] at h
        obtain ⟨⟨rfl, rfl⟩, rfl⟩ := h
        exact .inr (.inr ⟨e', rfl, fun hh => g.err (by rw [he, hh])⟩)
      | none =>
        rw [he] at h
        dsimp only at h
        split at h
        · simp only [Res.ok.injEq, Prod.mk.injEq] at h
          obtain ⟨⟨rfl, rfl⟩, rfl⟩ := h
          exact .inr (.inl ⟨rfl, hnd, r, ha, by simp, g.size, by simp, r, rfl, fun _ => hr he⟩)
        · exact ih _ (fill_sound D 100 b a g he (by omega)) h

theorem readString_sound (d : UInt8) (f : Nat) (acc x a : Bytes) (b b' : Bufio ρ) (g : Sound inv pending b a)
    (h : Bufio.readString d f acc b = .ok (x, b')) :
    ∃ a' y, Sound inv pending b' a' ∧ x = acc ++ (y ++ [d]) ∧ a = y ++ [d] ++ a' ∧ d ∉ y := by
  induction f generalizing acc b a with
  | zero => simp [Bufio.readString] at h
  | succ f ih =>
    unfold Bufio.readString at h
    obtain ⟨⟨⟨frag, e⟩, b1⟩, h1, h⟩ := Res.bind_eq_ok.1 h
    rcases readSlice_sound D _ _ _ _ _ _ _ g h1 with ⟨rfl, y, a', rfl, hy, ha, g1⟩ | ⟨rfl, hn, a', ha, g1⟩ | ⟨x, rfl, _⟩
    · simp only [Res.ok.injEq, Prod.mk.injEq] at h
      obtain ⟨rfl, rfl⟩ := h
      exact ⟨a', y, g1, rfl, ha, hy⟩
    · obtain ⟨a2, y, g2, rfl, ha', hy⟩ := ih _ _ _ g1 h
      exact ⟨a2, frag ++ y, g2, by simp, by rw [ha, ha']; simp, by simp [hn, hy]⟩
    · simp at h

theorem readString_reports (d : UInt8) (f : Nat) (acc a : Bytes) (b : Bufio ρ) (g : Sound inv pending b a) :
    Bufio.readString d f acc b ≠ .err .eof := by
  induction f generalizing acc b a with
  | zero => simp [Bufio.readString]
  | succ f ih =>
    intro h
    unfold Bufio.readString at h
    rcases Res.bind_eq_err.1 h with h | ⟨⟨⟨frag, e⟩, b1⟩, h1, h⟩
    · exact readSlice_noErr _ _ _ _ h (by simp)
    · rcases readSlice_sound D _ _ _ _ _ _ _ g h1 with ⟨rfl, y, a', rfl, hy, ha, g1⟩ | ⟨rfl, hn, a', ha, g1⟩ |
        ⟨x, rfl, hx⟩
      · simp at h
      · exact ih _ _ _ g1 h
      · simp at h; exact hx h

/-- `Read` reports an error that is not EOF, or the bytes ahead. -/
theorem read_sound (k : Nat) (hk : 0 < k) (b : Bufio ρ) (a : Bytes) (g : Sound inv pending b a) :
    (Bufio.read k b).1.1 <+: a ∧ (∀ e, (Bufio.read k b).1.2 = some e → e ≠ .eof) ∧
    ((Bufio.read k b).1.2 = none → ∃ a', a = (Bufio.read k b).1.1 ++ a' ∧ Sound inv pending (Bufio.read k b).2 a') ∧
    (k ≤ 20 → (Bufio.read k b).1.2 ≠ none → (Bufio.read k b).1.1 = []) := by
  obtain ⟨r, ha, hr⟩ := g.rest
  have hpos : 0 < b.size := by have := g.size; omega
  unfold Bufio.read
  split
  · rename_i hb
    cases he : b.err with
    | some e =>
      refine ⟨by simp, ?_, by simp, by simp⟩
      intro e' h'
      simp only [Option.some.injEq] at h'
      exact fun hh => g.err (by rw [he, h', hh])
    | none =>
      obtain ⟨hi, rfl⟩ := hr he
      rw [hb, List.nil_append] at ha
      subst ha
      simp only
      split
      · rename_i hle
        cases hrd : (Source.read k b.src).1.2 with
        | some e =>
          have h1 := D.error _ _ _ hk hi hrd
          exact ⟨h1.2, fun e' h' => by cases h'; exact h1.1, by simp, fun h => by have := g.size; omega⟩
        | none =>
          have h1 := D.stays _ _ hk hi hrd
          refine ⟨⟨_, h1.2.symm⟩, by simp, fun _ => ⟨_, h1.2, ?_⟩, by simp⟩
          exact ⟨by simp, g.size, g.fits, _, by simp [hb], fun _ => ⟨h1.1, rfl⟩⟩
      · cases hrd : (Source.read b.size b.src).1.2 with
        | some e =>
          have h1 := D.error _ _ _ hpos hi hrd
          split
          · rename_i hnil
            exact ⟨by simp, fun e' h' => by cases h'; exact h1.1, by simp, by simp⟩
          · refine ⟨(List.take_prefix _ _).trans h1.2, by simp, fun _ => ?_, by simp⟩
            obtain ⟨r', hr'⟩ := h1.2
            refine ⟨(Source.read b.size b.src).1.1.drop k ++ r', ?_, ?_⟩
            · dsimp only
              rw [← List.append_assoc, List.take_append_drop, hr']
            · have := D.size _ _ hpos hi
              exact ⟨by simpa using h1.1, g.size, by simp only [List.length_drop]; omega, r', rfl, by simp⟩
        | none =>
          have h1 := D.stays _ _ hpos hi hrd
          split
          · rename_i hnil
            have h2 := h1.2
            rw [hnil, List.nil_append] at h2
            refine ⟨by simp, by simp, fun _ => ⟨pending b.src, ?_, by simp, g.size, g.fits, _, ?_, fun _ => ⟨h1.1, rfl⟩⟩, by simp⟩
            · simp
            · dsimp only
              rw [hb, ← h2]; simp
          · refine ⟨(List.take_prefix _ _).trans ⟨_, h1.2.symm⟩, by simp, fun _ => ?_, by simp⟩
            refine ⟨(Source.read b.size b.src).1.1.drop k ++ pending (Source.read b.size b.src).2, ?_, ?_⟩
            · dsimp only
              rw [← List.append_assoc, List.take_append_drop]; exact h1.2
            · have := D.size _ _ hpos hi
              exact ⟨by simp, g.size, by simp only [List.length_drop]; omega, _, rfl, fun _ => ⟨h1.1, rfl⟩⟩
  · refine ⟨?_, by simp, fun _ => ?_, by simp⟩
    · rw [ha]
      exact (List.take_prefix _ _).trans ⟨_, rfl⟩
    · refine ⟨b.buf.drop k ++ r, ?_, g.err, g.size, ?_, r, rfl, hr⟩
      · dsimp only
        rw [ha, ← List.append_assoc, List.take_append_drop]
      · have := g.fits
        simp only [List.length_drop]; omega

theorem readAll_sound (f : Nat) (acc a : Bytes) (b : Bufio ρ) (g : Sound inv pending b a) (x : Bytes × Bufio ρ) :
    Bufio.readAll f acc b ≠ .ok x := by
  induction f generalizing acc b a with
  | zero => simp [Bufio.readAll]
  | succ f ih =>
    unfold Bufio.readAll
    obtain ⟨_, hne, hgo, _⟩ := read_sound D (b.room acc.length + 1) (by omega) b a g
    dsimp only
    split
    · rename_i e he
      rw [if_neg (hne e he)]
      simp
    · rename_i he
      obtain ⟨a', _, g1⟩ := hgo he
      exact ih _ _ _ g1

theorem readFull_sound (n f : Nat) (hn : n ≤ 20) (acc x a : Bytes) (b b' : Bufio ρ) (g : Sound inv pending b a)
    (h : Bufio.readFull n f acc b = .ok (x, b')) : ∃ a', Sound inv pending b' a' := by
  induction f generalizing acc b a with
  | zero => simp [Bufio.readFull] at h
  | succ f ih =>
    unfold Bufio.readFull at h
    split at h
    · simp only [Res.ok.injEq, Prod.mk.injEq] at h; exact ⟨a, h.2 ▸ g⟩
    · rename_i hlt
      obtain ⟨_, hne, hgo, hempty⟩ := read_sound D (n - acc.length) (by omega) b a g
      dsimp only at h
      split at h
      · rename_i e he
        rw [hempty (by omega) (by rw [he]; simp), List.append_nil, if_neg hlt] at h
        split at h <;> simp at h
      · rename_i he
        obtain ⟨a', _, g1⟩ := hgo he
        exact ih _ _ _ g1 h

theorem readFull_reports (n f : Nat) (acc a : Bytes) (b : Bufio ρ) (g : Sound inv pending b a) :
    Bufio.readFull n f acc b ≠ .err .eof := by
  induction f generalizing acc b a with
  | zero => simp [Bufio.readFull]
  | succ f ih =>
    intro h
    unfold Bufio.readFull at h
    split at h
    · simp at h
    · obtain ⟨_, hne, hgo, _⟩ := read_sound D (n - acc.length) (by omega) b a g
      dsimp only at h
      split at h
      · rename_i e he
        split at h
        · simp at h
        · split at h
          · simp at h
          · simp at h; exact hne e he h
      · rename_i he
        obtain ⟨a', _, g1⟩ := hgo he
        exact ih _ _ _ g1 h

theorem readLimited_sound (n f : Nat) (acc x a : Bytes) (b b' : Bufio ρ) (g : Sound inv pending b a)
    (h : Bufio.readLimited n f acc b = .ok (x, b')) : ∃ y r, x = acc ++ y ∧ a = y ++ r := by
  induction f generalizing acc b a with
  | zero => simp [Bufio.readLimited] at h
  | succ f ih =>
    unfold Bufio.readLimited at h
    split at h
    · simp only [Res.ok.injEq, Prod.mk.injEq] at h
      exact ⟨[], a, by simp [h.1], by simp⟩
    · obtain ⟨_, hne, hgo, _⟩ := read_sound D (min (b.room acc.length + 1) (n - acc.length)) (by omega) b a g
      dsimp only at h
      split at h
      · rename_i e he
        rw [if_neg (hne e he)] at h
        simp at h
      · rename_i he
        obtain ⟨a', ha, g1⟩ := hgo he
        obtain ⟨y, r, rfl, ha'⟩ := ih _ _ _ g1 h
        exact ⟨(Bufio.read (min (b.room acc.length + 1) (n - acc.length)) b).1.1 ++ y, r, by simp,
          by rw [ha, ha']; simp⟩

/-- All operations but `ReadLine` report the first error, whatever the reader does
after it. -/
theorem bufio_reports : Reports (Bufio ρ) (Sound inv pending) where
  string d s a x s' hi h := by
    obtain ⟨a', y, g, hx, ha, hy⟩ := readString_sound D _ _ _ _ _ _ _ hi h
    rw [List.nil_append] at hx
    exact ⟨a', g, by rw [hx]; exact ha, y, hx, hy⟩
  stringErr d s a hi := readString_reports D _ _ _ _ _ hi
  all s a x hi := readAll_sound D _ _ _ _ hi x
  full s a x s' hi h := readFull_sound D _ _ (by omega) _ _ _ _ _ hi h
  fullErr s a hi := readFull_reports D _ _ _ _ _ hi
  limited n s a x s' hi h := by
    obtain ⟨y, r, hx, ha⟩ := readLimited_sound D _ _ _ _ _ _ _ hi h
    rw [List.nil_append] at hx
    exact ⟨r, by rw [hx]; exact ha⟩

end

/-! ## The decoders -/

theorem chop_noEof (l : Bytes) : chop l ≠ .err .eof := by
  unfold chop; split <;> simp

theorem shaToCid_noEof (l : Bytes) : shaToCid l ≠ .err .eof := by
  unfold shaToCid; split <;> simp

/-- Some bytes are ahead. -/
def Live {σ : Type} (R : σ → Bytes → Prop) (s : σ) : Prop := ∃ a, R s a

section

variable {σ : Type} [Reader σ] {R : σ → Bytes → Prop}

section

variable (D : Reports σ R)
include D

theorem live_string (d : UInt8) (s s' : σ) (x : Bytes) (hs : Live R s) (h : Reader.readString d s = .ok (x, s')) :
    Live R s' :=
  hs.elim fun _ h1 => (D.string _ _ _ _ _ h1 h).elim fun _ h2 => ⟨_, h2.1⟩

theorem live_stringErr (d : UInt8) (s : σ) (hs : Live R s) : Reader.readString d s ≠ .err .eof :=
  hs.elim fun _ h1 => D.stringErr _ _ _ h1

theorem live_all (s : σ) (x : Bytes × σ) (hs : Live R s) : Reader.readAll s ≠ .ok x :=
  hs.elim fun _ h1 => D.all _ _ _ h1

theorem live_full (s s' : σ) (x : Bytes) (hs : Live R s) (h : Reader.readFull 20 s = .ok (x, s')) : Live R s' :=
  hs.elim fun _ h1 => D.full _ _ _ _ h1 h

theorem live_fullErr (s : σ) (hs : Live R s) : Reader.readFull 20 s ≠ .err .eof :=
  hs.elim fun _ h1 => D.fullErr _ _ h1

theorem noEnd_entry (s : σ) (hs : Live R s) : decodeTreeEntry s ≠ .err .eof ∧
    ∀ x s', decodeTreeEntry s = .ok (x, s') → Live R s' := by
  unfold decodeTreeEntry
  constructor
  · intro h
    rcases Res.bind_eq_err.1 h with h | ⟨⟨d, s1⟩, h1, h⟩
    · exact live_stringErr D _ _ hs h
    have i1 := live_string D _ _ _ _ hs h1
    rcases Res.bind_eq_err.1 h with h | ⟨d', _, h⟩
    · exact chop_noEof _ h
    rcases Res.bind_eq_err.1 h with h | ⟨⟨n, s2⟩, h2, h⟩
    · exact live_stringErr D _ _ i1 h
    have i2 := live_string D _ _ _ _ i1 h2
    rcases Res.bind_eq_err.1 h with h | ⟨n', _, h⟩
    · exact chop_noEof _ h
    rcases Res.bind_eq_err.1 h with h | ⟨⟨f, s3⟩, h3, h⟩
    · exact live_fullErr D _ i2 h
    rcases Res.bind_eq_err.1 h with h | ⟨c, _, h⟩
    · exact shaToCid_noEof _ h
    simp at h
  · intro x s' h
    obtain ⟨⟨d, s1⟩, h1, h⟩ := Res.bind_eq_ok.1 h
    have i1 := live_string D _ _ _ _ hs h1
    obtain ⟨d', _, h⟩ := Res.bind_eq_ok.1 h
    obtain ⟨⟨n, s2⟩, h2, h⟩ := Res.bind_eq_ok.1 h
    have i2 := live_string D _ _ _ _ i1 h2
    obtain ⟨n', _, h⟩ := Res.bind_eq_ok.1 h
    obtain ⟨⟨f, s3⟩, h3, h⟩ := Res.bind_eq_ok.1 h
    have i3 := live_full D _ _ _ i2 h3
    obtain ⟨c, _, h⟩ := Res.bind_eq_ok.1 h
    simp only [Res.ok.injEq, Prod.mk.injEq] at h
    exact h.2 ▸ i3

theorem noEnd_treeLoop (f : Nat) (t t' : Tree) (s : σ) (hs : Live R s) : treeLoop f t s ≠ .ok t' := by
  induction f generalizing t s with
  | zero => simp [treeLoop]
  | succ f ih =>
    intro h
    unfold treeLoop at h
    obtain ⟨h1, h2⟩ := noEnd_entry D s hs
    split at h
    · rename_i he; exact h1 he
    · simp at h
    · simp at h
    · rename_i he
      obtain ⟨t1, _, h⟩ := Res.bind_eq_ok.1 h
      exact ih _ _ (h2 _ _ he) h

theorem noEnd_readNum (s s' : σ) (z : Int) (a : Bytes) (hs : R s a) (h : readNum s = .ok (z, s')) :
    ∃ a', R s' a' ∧ ∃ d, a = d ++ NUL :: a' ∧ atoi d = .ok z := by
  unfold readNum at h
  obtain ⟨⟨l, s1⟩, h1, h⟩ := Res.bind_eq_ok.1 h
  obtain ⟨a', i1, ha, y, rfl, _⟩ := D.string _ _ _ _ _ hs h1
  simp only [chop_concat, Res.bind_ok] at h
  obtain ⟨n, h2, h⟩ := Res.bind_eq_ok.1 h
  simp only [Res.ok.injEq, Prod.mk.injEq] at h
  obtain ⟨rfl, rfl⟩ := h
  exact ⟨a', i1, y, by rw [ha]; simp, h2⟩

/-- From a reader that reports its errors no tree can be read, and a blob only if
all of it is ahead. -/
theorem reports_parseObject (s : σ) (a : Bytes) (hs : R s a) (o : Obj) (h : parseObject s = .ok o) :
    (∃ d content rest, o = .blob (b!"blob " ++ decimal content.length ++ NUL :: content) ∧
      a = b!"blob " ++ d ++ NUL :: (content ++ rest) ∧ Signed d content.length) ∨
    ∃ s1 a1, R s1 a1 ∧ ((∃ c, o = .commit c ∧ decodeCommit s1 = .ok c ∧ a = b!"commit " ++ a1) ∨
      (∃ t, o = .tag t ∧ decodeTag s1 = .ok t ∧ a = b!"tag " ++ a1)) := by
  unfold parseObject at h
  obtain ⟨⟨typ, s1⟩, h1, h⟩ := Res.bind_eq_ok.1 h
  have ht : ∃ a1, R s1 a1 ∧ a = typ ++ SP :: a1 := by
    unfold readType at h1
    split at h1
    · simp at h1
    · simp at h1
    · simp at h1
    · rename_i w s2 he
      obtain ⟨a1, i1, ha, y, rfl, _⟩ := D.string _ _ _ _ _ hs he
      simp only [chop_concat, Res.bind_ok, Res.ok.injEq, Prod.mk.injEq] at h1
      obtain ⟨rfl, rfl⟩ := h1
      exact ⟨a1, i1, by rw [ha]; simp⟩
  obtain ⟨a1, i1, ha⟩ := ht
  simp only at h
  split at h
  · obtain ⟨t, h2, h⟩ := Res.bind_eq_ok.1 h
    unfold decodeTree at h2
    obtain ⟨⟨_, s2⟩, h3, h2⟩ := Res.bind_eq_ok.1 h2
    obtain ⟨a2, i2, _⟩ := noEnd_readNum D _ _ _ _ i1 h3
    exact absurd h2 (noEnd_treeLoop D _ _ _ _ ⟨_, i2⟩)
  split at h
  · rename_i hw
    subst hw
    obtain ⟨t, h2, h⟩ := Res.bind_eq_ok.1 h
    simp only [Res.ok.injEq] at h
    exact .inr ⟨s1, a1, i1, .inl ⟨t, h.symm, h2, by rw [ha]; simp⟩⟩
  split at h
  · rename_i hw
    subst hw
    obtain ⟨b, hd, h⟩ := Res.bind_eq_ok.1 h
    simp only [Res.ok.injEq] at h
    subst h
    unfold decodeBlob at hd
    obtain ⟨⟨z, s2⟩, h3, hd⟩ := Res.bind_eq_ok.1 hd
    obtain ⟨a2, i2, d, ha2, hat⟩ := noEnd_readNum D _ _ _ _ i1 h3
    have hsg := ((atoi_iff d z).1 hat).1
    simp only at hd
    split at hd
    · simp at hd
    · obtain ⟨⟨body, s3⟩, h4, hd⟩ := Res.bind_eq_ok.1 hd
      simp only at hd
      split at hd
      · split at hd <;> simp at hd
      · rename_i hz hlen
        simp only [ne_eq, Decidable.not_not] at hlen
        simp only [Res.ok.injEq] at hd
        obtain ⟨rest, hbody⟩ := D.limited _ _ _ _ _ i2 h4
        have hz' : z = (body.length : Int) := by rw [hlen]; omega
        subst hz'
        refine .inl ⟨d, body, rest, ?_, ?_, hsg⟩
        · rw [← hd]; simp
        · rw [ha, ha2, hbody]; simp
  split at h
  · rename_i hw
    subst hw
    obtain ⟨t, h2, h⟩ := Res.bind_eq_ok.1 h
    simp only [Res.ok.injEq] at h
    exact .inr ⟨s1, a1, i1, .inr ⟨t, h.symm, h2, by rw [ha]; simp⟩⟩
  · simp at h

end

section

variable (D : NoEnd σ R)
include D

theorem live_line (s s' : σ) (x : Bytes) (hs : Live R s) (h : Reader.readLine s = .ok (x, s')) : Live R s' :=
  hs.elim fun _ h1 => D.line _ _ _ _ h1 h

theorem live_lineErr (s : σ) (hs : Live R s) : Reader.readLine s ≠ .err .eof :=
  hs.elim fun _ h1 => D.lineErr _ _ h1

theorem noEnd_tagLine (o o' : Tag) (l : Bytes) (s s' : σ) (hs : Live R s) (h : tagLine o l s = .ok (o', s')) :
    Live R s' := by
  unfold tagLine at h
  split at h
  · obtain ⟨_, _, h⟩ := Res.bind_eq_ok.1 h
    obtain ⟨_, _, h⟩ := Res.bind_eq_ok.1 h
    obtain ⟨_, _, h⟩ := Res.bind_eq_ok.1 h
    simp only [Res.ok.injEq, Prod.mk.injEq] at h; exact h.2 ▸ hs
  split at h
  · obtain ⟨_, _, h⟩ := Res.bind_eq_ok.1 h
    simp only [Res.ok.injEq, Prod.mk.injEq] at h; exact h.2 ▸ hs
  split at h
  · obtain ⟨_, _, h⟩ := Res.bind_eq_ok.1 h
    simp only [Res.ok.injEq, Prod.mk.injEq] at h; exact h.2 ▸ hs
  split at h
  · obtain ⟨_, _, h⟩ := Res.bind_eq_ok.1 h
    simp only [Res.ok.injEq, Prod.mk.injEq] at h; exact h.2 ▸ hs
  split at h
  · obtain ⟨_, h1, h⟩ := Res.bind_eq_ok.1 h
    exact absurd h1 (live_all D.toReports _ _ hs)
  · simp only [Res.ok.injEq, Prod.mk.injEq] at h; exact h.2 ▸ hs

theorem noEnd_tagLoop (f : Nat) (o t : Tag) (s : σ) (hs : Live R s) : tagLoop f o s ≠ .ok t := by
  induction f generalizing o s with
  | zero => simp [tagLoop]
  | succ f ih =>
    intro h
    unfold tagLoop at h
    split at h
    · rename_i he; exact live_lineErr D _ hs he
    · simp at h
    · simp at h
    · rename_i l s1 he
      obtain ⟨⟨o1, s2⟩, h1, h⟩ := Res.bind_eq_ok.1 h
      exact ih _ _ (noEnd_tagLine D _ _ _ _ _ (live_line D _ _ _ hs he) h1) h

theorem noEnd_mergeMsgLoop (f : Nat) (m : Bytes) (s : σ) (hs : Live R s) (x : Bytes × Bytes) (s' : σ)
    (h : mergeMsgLoop f m s = .ok (x, s')) : Live R s' := by
  induction f generalizing m s with
  | zero => simp [mergeMsgLoop] at h
  | succ f ih =>
    unfold mergeMsgLoop at h
    split at h
    · simp at h
    · simp at h
    · rename_i l s1 he
      have i1 := live_line D _ _ _ hs he
      split at h
      · simp only [Res.ok.injEq, Prod.mk.injEq] at h; exact h.2 ▸ i1
      · exact ih _ _ i1 h

theorem noEnd_mergeTagLoop (f : Nat) (o : Tag) (s : σ) (hs : Live R s) (x : Tag × Option Bytes) (s' : σ)
    (h : mergeTagLoop f o s = .ok (x, s')) : Live R s' := by
  induction f generalizing o s with
  | zero => simp [mergeTagLoop] at h
  | succ f ih =>
    unfold mergeTagLoop at h
    split at h
    · rename_i he; exact absurd he (live_lineErr D _ hs)
    · simp at h
    · simp at h
    · rename_i l s1 he
      have i1 := live_line D _ _ _ hs he
      split at h
      · obtain ⟨_, _, h⟩ := Res.bind_eq_ok.1 h
        exact ih _ _ i1 h
      split at h
      · obtain ⟨_, _, h⟩ := Res.bind_eq_ok.1 h
        exact ih _ _ i1 h
      split at h
      · obtain ⟨_, _, h⟩ := Res.bind_eq_ok.1 h
        obtain ⟨_, _, h⟩ := Res.bind_eq_ok.1 h
        exact ih _ _ i1 h
      split at h
      · obtain ⟨⟨⟨m, r⟩, s2⟩, h1, h⟩ := Res.bind_eq_ok.1 h
        simp only [Res.ok.injEq, Prod.mk.injEq] at h
        exact h.2 ▸ noEnd_mergeMsgLoop D _ _ _ i1 _ _ h1
      · exact ih _ _ i1 h

theorem noEnd_sigLoop (f : Nat) (m : Bytes) (s : σ) (hs : Live R s) (x : Bytes) (s' : σ)
    (h : sigLoop f m s = .ok (x, s')) : Live R s' := by
  induction f generalizing m s with
  | zero => simp [sigLoop] at h
  | succ f ih =>
    unfold sigLoop at h
    split at h
    · simp at h
    · simp at h
    · rename_i l s1 he
      have i1 := live_line D _ _ _ hs he
      split at h
      · simp only [Res.ok.injEq, Prod.mk.injEq] at h; exact h.2 ▸ i1
      · exact ih _ _ i1 h

theorem noEnd_commitLine (f : Nat) (c c' : Commit) (l : Bytes) (s s' : σ) (hs : Live R s)
    (h : commitLine f c l s = .ok (c', s')) : Live R s' := by
  induction f generalizing c l s with
  | zero => simp [commitLine] at h
  | succ f ih =>
    unfold commitLine at h
    split at h
    · obtain ⟨_, _, h⟩ := Res.bind_eq_ok.1 h
      obtain ⟨_, _, h⟩ := Res.bind_eq_ok.1 h
      obtain ⟨_, _, h⟩ := Res.bind_eq_ok.1 h
      simp only [Res.ok.injEq, Prod.mk.injEq] at h; exact h.2 ▸ hs
    split at h
    · obtain ⟨_, _, h⟩ := Res.bind_eq_ok.1 h
      obtain ⟨_, _, h⟩ := Res.bind_eq_ok.1 h
      obtain ⟨_, _, h⟩ := Res.bind_eq_ok.1 h
      simp only [Res.ok.injEq, Prod.mk.injEq] at h; exact h.2 ▸ hs
    split at h
    · obtain ⟨_, _, h⟩ := Res.bind_eq_ok.1 h
      simp only [Res.ok.injEq, Prod.mk.injEq] at h; exact h.2 ▸ hs
    split at h
    · obtain ⟨_, _, h⟩ := Res.bind_eq_ok.1 h
      simp only [Res.ok.injEq, Prod.mk.injEq] at h; exact h.2 ▸ hs
    split at h
    · obtain ⟨_, _, h⟩ := Res.bind_eq_ok.1 h
      simp only [Res.ok.injEq, Prod.mk.injEq] at h; exact h.2 ▸ hs
    split at h
    · obtain ⟨_, _, h⟩ := Res.bind_eq_ok.1 h
      obtain ⟨_, _, h⟩ := Res.bind_eq_ok.1 h
      obtain ⟨⟨⟨mt, rest⟩, s1⟩, h1, h⟩ := Res.bind_eq_ok.1 h
      have i1 : Live R s1 := by
        unfold readMergeTag at h1
        obtain ⟨_, _, h1⟩ := Res.bind_eq_ok.1 h1
        exact noEnd_mergeTagLoop D _ _ _ hs _ _ h1
      cases rest with
      | none => simp only [Res.ok.injEq, Prod.mk.injEq] at h; exact h.2 ▸ i1
      | some l' => exact ih _ _ _ i1 h
    split at h
    · obtain ⟨⟨g, s1⟩, h1, h⟩ := Res.bind_eq_ok.1 h
      simp only [Res.ok.injEq, Prod.mk.injEq] at h
      rw [← h.2]
      unfold decodeGpgSig at h1
      obtain ⟨⟨l1, s2⟩, h2, h1⟩ := Res.bind_eq_ok.1 h1
      obtain ⟨_, _, h1⟩ := Res.bind_eq_ok.1 h1
      exact noEnd_sigLoop D _ _ _ (live_line D _ _ _ hs h2) _ _ h1
    split at h
    · obtain ⟨_, h1, h⟩ := Res.bind_eq_ok.1 h
      exact absurd h1 (live_all D.toReports _ _ hs)
    · simp only [Res.ok.injEq, Prod.mk.injEq] at h; exact h.2 ▸ hs

theorem noEnd_commitLoop (f : Nat) (c c' : Commit) (s : σ) (hs : Live R s) : commitLoop f c s ≠ .ok c' := by
  induction f generalizing c s with
  | zero => simp [commitLoop]
  | succ f ih =>
    intro h
    unfold commitLoop at h
    split at h
    · rename_i he; exact live_lineErr D _ hs he
    · simp at h
    · simp at h
    · rename_i l s1 he
      obtain ⟨⟨o1, s2⟩, h1, h⟩ := Res.bind_eq_ok.1 h
      exact ih _ _ (noEnd_commitLine D _ _ _ _ _ _ (live_line D _ _ _ hs he) h1) h

/-- Only a blob can be read from a reader that never reports EOF. -/
theorem noEnd_parseObject (s : σ) (a : Bytes) (hs : R s a) (o : Obj) (h : parseObject s = .ok o) :
    ∃ d content rest, o = .blob (b!"blob " ++ decimal content.length ++ NUL :: content) ∧
      a = b!"blob " ++ d ++ NUL :: (content ++ rest) ∧ Signed d content.length := by
  rcases reports_parseObject D.toReports s a hs o h with h | ⟨s1, a1, i1, ⟨c, _, h, _⟩ | ⟨t, _, h, _⟩⟩
  · exact h
  · unfold decodeCommit at h
    obtain ⟨⟨_, s2⟩, h3, h2⟩ := Res.bind_eq_ok.1 h
    obtain ⟨a2, i2, _⟩ := noEnd_readNum D.toReports _ _ _ _ i1 h3
    exact absurd h2 (noEnd_commitLoop D _ _ _ _ ⟨_, i2⟩)
  · unfold decodeTag at h
    obtain ⟨⟨_, s2⟩, h3, h2⟩ := Res.bind_eq_ok.1 h
    exact absurd h2 (noEnd_tagLoop D _ _ _ _ (live_string D.toReports _ _ _ _ ⟨_, i1⟩ h3))

end

end

end Verif
