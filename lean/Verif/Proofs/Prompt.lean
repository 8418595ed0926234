import Verif.Proofs.Choice

/-!
# Readers that report the end together with the last bytes
-/

namespace Verif

open Spec

variable {ρ : Type} [Source ρ] {inv : ρ → Prop} {pending : ρ → Bytes} {fin : Err} {eager : Prop}

/-- No bytes are left in the buffer without more to come or an error to be reported. -/
structure Pressed (inv : ρ → Prop) (pending : ρ → Bytes) (b : Bufio ρ) : Prop where
  ok : inv b.src
  fits : b.buf.length ≤ b.size
  pos : 0 < b.size
  more : b.err = none → b.buf ≠ [] → pending b.src ≠ []

section

variable (D : Delivers ρ inv pending fin eager) (P : Prompt ρ inv pending)
include D P

theorem fill_pressed (i : Nat) (b : Bufio ρ) (h : Pressed inv pending b) (hl : b.buf.length < b.size) :
    Pressed inv pending (Bufio.fill i b) := by
  induction i generalizing b with
  | zero => exact ⟨h.ok, h.fits, h.pos, fun h => by cases h⟩
  | succ i ih =>
    have hk : 0 < b.size - b.buf.length := by omega
    have h1 := D.stays _ _ hk h.ok
    have h2 := D.size _ _ hk h.ok
    have h3 := P _ _ hk h.ok
    unfold Bufio.fill
    dsimp only
    revert h1 h2 h3
    generalize Source.read (b.size - b.buf.length) b.src = r
    intro h1 h2 h3
    cases he : r.1.2 with
    | some e => exact ⟨h1, by simp; omega, h.pos, fun h => by cases h⟩
    | none =>
      dsimp only
      split
      · exact ⟨h1, by simp; omega, h.pos, fun _ _ => h3 he⟩
      · exact ih _ ⟨h1, by simp; omega, h.pos, fun _ _ => h3 he⟩ (by simp; omega)

theorem readSlice_pressed (d : UInt8) (f : Nat) (b b' : Bufio ρ) (x : Bytes) (e : Bufio.End)
    (h : Pressed inv pending b) (hr : Bufio.readSlice d f b = .ok ((x, e), b')) :
    Pressed inv pending b' ∧ (e = .full → b'.buf = [] ∧ b'.err = none ∧ pending b'.src ≠ []) := by
  induction f generalizing b with
  | zero => cases hr
  | succ f ih =>
    have hf := h.fits
    have hp := h.pos
    unfold Bufio.readSlice at hr
    cases hs : splitAt d b.buf with
    | some q =>
      obtain ⟨u, v⟩ := q
      rw [hs] at hr
      cases hr
      have hv := (splitAt_some _ _ _ _ hs).1
      refine ⟨⟨h.ok, ?_, hp, fun he _ => h.more he (by rw [hv]; simp)⟩, fun h => by cases h⟩
      rw [hv] at hf
      simp at hf ⊢
      omega
    | none =>
      rw [hs] at hr
      cases he : b.err with
      | some x =>
        rw [he] at hr
        cases hr
        exact ⟨⟨h.ok, by simp, hp, fun _ h => absurd rfl h⟩, fun h => by cases h⟩
      | none =>
        rw [he] at hr
        dsimp only at hr
        split at hr
        · rename_i hle
          cases hr
          refine ⟨⟨h.ok, by simp, hp, fun _ h => absurd rfl h⟩, fun _ => ⟨rfl, rfl, h.more he ?_⟩⟩
          intro hb
          rw [hb, List.length_nil] at hle
          omega
        · exact ih _ (fill_pressed D P 100 b h (by omega)) hr

theorem readLine_pressed (b b' : Bufio ρ) (x : Bytes) (h : Pressed inv pending b)
    (hr : Bufio.readLine b = .ok (x, b')) : Pressed inv pending b' := by
  unfold Bufio.readLine at hr
  cases hs : Bufio.readSlice LF (b.size + 2) b with
  | ok q =>
    obtain ⟨⟨line, e⟩, c⟩ := q
    have hc := readSlice_pressed D P _ _ _ _ _ _ h hs
    rw [hs] at hr
    simp only [Res.bind_ok] at hr
    cases e with
    | found =>
      dsimp only at hr
      split at hr
      · split at hr <;> cases hr <;> exact hc.1
      · cases hr; exact hc.1
    | err e =>
      dsimp only at hr
      split at hr <;> cases hr
      exact hc.1
    | full =>
      dsimp only at hr
      obtain ⟨h1, h2, h3⟩ := hc.2 rfl
      split at hr
      · cases hr
        have := hc.1.pos
        exact ⟨hc.1.ok, by simp [h1]; omega, hc.1.pos, fun _ _ => h3⟩
      · cases hr; exact hc.1
  | err e => rw [hs] at hr; cases hr
  | panic => rw [hs] at hr; cases hr

theorem readString_pressed (d : UInt8) (f : Nat) (acc : Bytes) (b b' : Bufio ρ) (x : Bytes)
    (h : Pressed inv pending b) (hr : Bufio.readString d f acc b = .ok (x, b')) : Pressed inv pending b' := by
  induction f generalizing acc b with
  | zero => cases hr
  | succ f ih =>
    unfold Bufio.readString at hr
    cases hs : Bufio.readSlice d (b.size + 2) b with
    | ok q =>
      obtain ⟨⟨line, e⟩, c⟩ := q
      have hc := readSlice_pressed D P _ _ _ _ _ _ h hs
      rw [hs] at hr
      simp only [Res.bind_ok] at hr
      cases e with
      | found => cases hr; exact hc.1
      | err e => cases hr
      | full => exact ih _ _ hc.1 hr
    | err e => rw [hs] at hr; cases hr
    | panic => rw [hs] at hr; cases hr

theorem read_pressed (k : Nat) (hk : 0 < k) (b : Bufio ρ) (h : Pressed inv pending b) :
    Pressed inv pending (Bufio.read k b).2 := by
  have hp := h.pos
  have hf := h.fits
  unfold Bufio.read
  split
  · rename_i hb
    cases he : b.err with
    | some e => exact ⟨h.ok, hf, hp, fun _ h => absurd hb h⟩
    | none =>
      dsimp only
      split
      · exact ⟨D.stays _ _ hk h.ok, hf, hp, fun _ h => absurd hb h⟩
      · have h1 := D.stays _ _ hp h.ok
        have h2 := D.size _ _ hp h.ok
        have h3 := P _ _ hp h.ok
        split
        · exact ⟨h1, hf, hp, fun _ h => absurd hb h⟩
        · exact ⟨h1, by simp; omega, hp, fun he _ => h3 he⟩
  · rename_i hb
    exact ⟨h.ok, by simp; omega, hp, fun he _ => h.more he hb⟩

theorem readAll_pressed (f : Nat) (acc : Bytes) (b b' : Bufio ρ) (x : Bytes)
    (h : Pressed inv pending b) (hr : Bufio.readAll f acc b = .ok (x, b')) : Pressed inv pending b' := by
  induction f generalizing acc b with
  | zero => cases hr
  | succ f ih =>
    have hq := read_pressed D P (b.room acc.length + 1) (by omega) b h
    unfold Bufio.readAll at hr
    dsimp only at hr
    split at hr
    · split at hr <;> cases hr
      exact hq
    · exact ih _ _ hq hr

theorem readFull_pressed (n f : Nat) (acc : Bytes) (b b' : Bufio ρ) (x : Bytes)
    (h : Pressed inv pending b) (hr : Bufio.readFull n f acc b = .ok (x, b')) : Pressed inv pending b' := by
  induction f generalizing acc b with
  | zero => cases hr
  | succ f ih =>
    unfold Bufio.readFull at hr
    split at hr
    · cases hr; exact h
    have hq := read_pressed D P (n - acc.length) (by omega) b h
    dsimp only at hr
    split at hr
    · split at hr
      · cases hr; exact hq
      · split at hr <;> cases hr
    · exact ih _ _ hq hr

theorem readLimited_pressed (n f : Nat) (acc : Bytes) (b b' : Bufio ρ) (x : Bytes)
    (h : Pressed inv pending b) (hr : Bufio.readLimited n f acc b = .ok (x, b')) : Pressed inv pending b' := by
  induction f generalizing acc b with
  | zero => cases hr
  | succ f ih =>
    unfold Bufio.readLimited at hr
    split at hr
    · cases hr; exact h
    have hq := read_pressed D P (min (b.room acc.length + 1) (n - acc.length)) (by omega) b h
    dsimp only at hr
    split at hr
    · split at hr <;> cases hr
      exact hq
    · exact ih _ _ hq hr

/-- A line that fills the buffer, is the last and ends in CR, comes whole. -/
theorem corner_pressed (b : Bufio ρ) (s : Stream) (m : MatchAny inv pending fin eager b s)
    (h : Pressed inv pending b) (hc : Corner s) :
    ∃ b', Bufio.readLine b = .ok (s.rest, b') ∧ MatchAny inv pending fin eager b' { s with rest := [] } := by
  obtain ⟨line, e, b', h1, hsz, h2⟩ := readSlice_match D LF (b.size + 2) b s m (by split <;> omega)
  have h3 := readSlice_pressed D P _ _ _ _ _ _ h h1
  have hl : s.rest.length = b.size := by rw [hc.1, m.size]
  have hp := h.pos
  unfold Bufio.readLine
  rw [h1]
  simp only [Res.bind_ok]
  cases e with
  | found =>
    obtain ⟨x, r, -, -, -, h4, -⟩ := h2
    exact absurd (by rw [h4]; simp) hc.2.1
  | full =>
    obtain ⟨r, h4, h5, h6, h7, h8, h9⟩ := h2
    have hr : r = [] := by
      have := congrArg List.length h6
      rw [List.length_append] at this
      exact List.length_eq_zero_iff.1 (by omega)
    have h10 := h9.rest
    dsimp only at h10
    rw [hr, h7, List.nil_append] at h10
    exact absurd h10.symm (h3.2 rfl).2.2
  | err e =>
    obtain ⟨h4, h5, h6, h7, h8, h9⟩ := h2
    dsimp only
    rw [if_neg (by rw [h5]; omega), h5]
    exact ⟨b', rfl, h9⟩

/-- Related to the stream whose last piece comes whole. -/
def Presses (inv : ρ → Prop) (pending : ρ → Bytes) (fin : Err) (eager : Prop) (b : Bufio ρ) (t : Whole) : Prop :=
  MatchAny inv pending fin eager b t.of ∧ Pressed inv pending b

omit D P in
theorem RelRes.press {α : Type} {a : Res (α × Bufio ρ)} {b : Res (α × Stream)}
    (h : RelRes (MatchAny inv pending fin eager) a b) (hp : ∀ x b', a = .ok (x, b') → Pressed inv pending b') :
    RelRes (Presses inv pending fin eager) a (Whole.map b) := by
  rcases h.cases with ⟨x, s', t', rfl, rfl, h'⟩ | ⟨e, rfl, rfl⟩ | ⟨rfl, rfl⟩
  · exact .ok _ ⟨h', hp x s' rfl⟩
  · exact .err _
  · exact True.intro

/-- Over a reader that reports EOF together with the last bytes, `bufio.Reader` is the
stream whose last piece comes whole. -/
theorem prompt_sim (he : fin = .eof) :
    ReaderSim (σ := Bufio ρ) (τ := Whole) (Presses inv pending fin eager) where
  readString d b t h := (bufio_string D d b t.of h.1).press fun x b' hr => readString_pressed D P _ _ _ _ _ _ h.2 hr
  readLine b t h := by
    by_cases hc : Corner t.of
    · obtain ⟨b', h1, h2⟩ := corner_pressed D P b t.of h.1 h.2 hc
      have e : Reader.readLine t = .ok (t.of.rest, ⟨{ t.of with rest := [] }⟩) := if_pos hc
      have e' : Reader.readLine b = .ok (t.of.rest, b') := h1
      rw [e, e']
      exact .ok _ ⟨h2, readLine_pressed D P _ _ _ h.2 h1⟩
    · have e : Reader.readLine t = Whole.map (Reader.readLine t.of) := if_neg hc
      rw [e]
      rcases readLine_match D b t.of h.1 with h' | ⟨-, h1, h2, h3, -⟩
      · exact h'.press fun x b' hr => readLine_pressed D P _ _ _ h.2 hr
      · exact absurd ⟨h1, h2, h3⟩ hc
  readAll b t h := (bufio_all D b t.of h.1).press fun x b' hr => readAll_pressed D P _ _ _ _ _ h.2 hr
  readFull n b t h := (bufio_full D n b t.of h.1).press fun x b' hr => readFull_pressed D P _ _ _ _ _ _ h.2 hr
  readLimited n b t h := by
    rcases bufio_limited D n b t.of h.1 with h' | h'
    · exact h'.press fun x b' hr => readLimited_pressed D P _ _ _ _ _ _ h.2 hr
    · exact absurd he h'.2.1
  left b t h := bufio_left D b t.of h.1

end

end Verif
