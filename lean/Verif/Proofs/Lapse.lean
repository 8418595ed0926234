import Verif.Proofs.Bufio
import Verif.Proofs.Fold
import Verif.Proofs.Long
import Verif.Proofs.LineSim

/-!
# A reader that fails once

`bufio.Reader` over a reader that fails once and then goes on: a line that was begun
before the failure is handed out as if it were complete.
-/

namespace Verif

open Spec

/-- Before the failure: `rest` is still to come. -/
structure Pre {ρ : Type} [Source ρ] (inv : ρ → Prop) (pending : ρ → Bytes) (fin : Err) (after : ρ → Prop)
    (b : Bufio ρ) (rest : Bytes) : Prop where
  good : b.err = none → inv b.src ∧ rest = b.buf ++ pending b.src
  bad : ∀ x, b.err = some x → x = fin ∧ rest = b.buf ∧ after b.src
  fits : b.buf.length ≤ b.size
  pos : 1 ≤ b.size

section

variable {ρ : Type} [Source ρ] {inv : ρ → Prop} {pending : ρ → Bytes} {fin : Err} {after : ρ → Prop} {later : Nat}
variable (D : Lapses ρ inv pending fin after later)
include D

theorem pre_left {b : Bufio ρ} {rest : Bytes} (m : Pre inv pending fin after b rest) :
    Bufio.left b = rest.length + later := by
  unfold Bufio.left
  cases he : b.err with
  | none =>
    obtain ⟨h1, h2⟩ := m.good he
    rw [h2, D.left _ h1, List.length_append]; omega
  | some x =>
    obtain ⟨-, h2, h3⟩ := m.bad x he
    rw [h2, (D.rest _ h3).1]

theorem fill_pre (i : Nat) (b : Bufio ρ) (rest : Bytes) (m : Pre inv pending fin after b rest)
    (he : b.err = none) (hl : b.buf.length < b.size) (hi : Source.idle b.src < i) :
    Pre inv pending fin after (Bufio.fill i b) rest ∧ (Bufio.fill i b).size = b.size ∧
      ((Bufio.fill i b).err ≠ none ∧ b.buf.length ≤ (Bufio.fill i b).buf.length ∨
        b.buf.length < (Bufio.fill i b).buf.length) := by
  induction i generalizing b with
  | zero => omega
  | succ i ih =>
    have hk : 0 < b.size - b.buf.length := by omega
    obtain ⟨m1, m2⟩ := m.good he
    have hs := D.size _ _ hk m1
    unfold Bufio.fill
    dsimp only
    cases hr : (Source.read (b.size - b.buf.length) b.src).1.2 with
    | some e =>
      have h1 := D.error _ _ _ hk m1 hr
      refine ⟨⟨?_, ?_, ?_, m.pos⟩, rfl, ?_⟩
      · intro h; cases h
      · intro x hx
        simp only [Option.some.injEq] at hx
        exact ⟨hx ▸ h1.1, by dsimp only; rw [h1.2.1, m2], h1.2.2⟩
      · dsimp only; rw [List.length_append]; omega
      · left; dsimp only; rw [List.length_append]; exact ⟨by simp, by omega⟩
    | none =>
      dsimp only
      obtain ⟨h1, h2⟩ := D.stays _ _ hk m1 hr
      have m' : Pre inv pending fin after
          { b with buf := b.buf ++ (Source.read (b.size - b.buf.length) b.src).1.1,
                   src := (Source.read (b.size - b.buf.length) b.src).2 } rest := by
        refine ⟨fun _ => ⟨h1, ?_⟩, ?_, ?_, m.pos⟩
        · dsimp only; rw [m2, h2, List.append_assoc]
        · intro x hx; dsimp only at hx; rw [he] at hx; cases hx
        · dsimp only; rw [List.length_append]; omega
      split
      · rename_i hp
        refine ⟨m', rfl, .inr ?_⟩
        dsimp only; rw [List.length_append]; omega
      · rename_i hp
        have hnil : (Source.read (b.size - b.buf.length) b.src).1.1 = [] := by
          cases h : (Source.read (b.size - b.buf.length) b.src).1.1 with
          | nil => rfl
          | cons c cs => rw [h] at hp; simp at hp
        have hp := D.progress _ _ hk m1 hr hnil
        have := ih _ m' he (by dsimp only; rw [hnil, List.append_nil]; exact hl) (by dsimp only; omega)
        dsimp only at this ⊢
        rw [hnil, List.append_nil] at this ⊢
        exact this

/-- What `ReadSlice` returns, in terms of the remaining bytes. -/
def PreSlice (inv : ρ → Prop) (pending : ρ → Bytes) (fin : Err) (after : ρ → Prop) (d : UInt8) (size : Nat)
    (rest line : Bytes) (b' : Bufio ρ) : Bufio.End → Prop
  | .found => ∃ x r, line = x ++ [d] ∧ d ∉ x ∧ x.length < size ∧ rest = x ++ d :: r ∧
      Pre inv pending fin after b' r
  | .full => ∃ r, d ∉ line ∧ line.length = size ∧ rest = line ++ r ∧ b'.buf = [] ∧ b'.err = none ∧
      Pre inv pending fin after b' r
  | .err e => e = fin ∧ line = rest ∧ d ∉ line ∧ line.length ≤ size ∧ b'.buf = [] ∧ b'.err = none ∧ after b'.src

theorem readSlice_pre (d : UInt8) (f : Nat) (b : Bufio ρ) (rest : Bytes) (m : Pre inv pending fin after b rest)
    (hf : (b.size - b.buf.length) + (if b.err = none then 1 else 0) < f) :
    ∃ line e b', Bufio.readSlice d f b = .ok ((line, e), b') ∧ b'.size = b.size ∧
      PreSlice inv pending fin after d b.size rest line b' e := by
  induction f generalizing b with
  | zero => omega
  | succ f ih =>
    unfold Bufio.readSlice
    cases hsp : splitAt d b.buf with
    | some xy =>
      obtain ⟨x, y⟩ := xy
      obtain ⟨hb, hx⟩ := splitAt_some _ _ _ _ hsp
      have hfits := m.fits
      have hlen : b.buf.length = x.length + (y.length + 1) := by rw [hb]; simp
      cases he : b.err with
      | none =>
        obtain ⟨m1, m2⟩ := m.good he
        refine ⟨_, _, _, rfl, rfl, x, y ++ pending b.src, rfl, hx, by omega, ?_, ?_⟩
        · rw [m2, hb]; simp
        · refine ⟨fun _ => ⟨m1, rfl⟩, ?_, ?_, m.pos⟩
          · intro e h; cases h
          · dsimp only; omega
      | some e =>
        obtain ⟨m1, m2, m3⟩ := m.bad e he
        refine ⟨_, _, _, rfl, rfl, x, y, rfl, hx, by omega, ?_, ?_⟩
        · rw [m2, hb]
        · refine ⟨?_, ?_, ?_, m.pos⟩
          · intro h; cases h
          · intro e' h; cases h; exact ⟨m1, rfl, m3⟩
          · dsimp only; omega
    | none =>
      have hnd := (splitAt_none _ _).1 hsp
      cases he : b.err with
      | some e =>
        obtain ⟨h1, h2, h3⟩ := m.bad _ he
        exact ⟨_, _, _, rfl, rfl, h1, h2.symm, hnd, m.fits, rfl, rfl, h3⟩
      | none =>
        obtain ⟨m1, m2⟩ := m.good he
        dsimp only
        split
        · rename_i hfull
          have hfits := m.fits
          refine ⟨_, _, _, rfl, rfl, pending b.src, hnd, by omega, m2, rfl, rfl, ?_⟩
          refine ⟨fun _ => ⟨m1, rfl⟩, ?_, by simp, m.pos⟩
          intro x h; cases h
        · rename_i hfull
          obtain ⟨m', hsz, hgrow⟩ := fill_pre D 100 b rest m he (by omega) (D.idle _ m1)
          have hf' : ((Bufio.fill 100 b).size - (Bufio.fill 100 b).buf.length) +
              (if (Bufio.fill 100 b).err = none then 1 else 0) < f := by
            rw [he] at hf
            simp only [if_true] at hf
            rw [hsz]
            rcases hgrow with ⟨h1, h2⟩ | h
            · rw [if_neg h1]; omega
            · have := m'.fits; rw [hsz] at this
              split <;> omega
          obtain ⟨line, e, b', h1, h2, h3⟩ := ih _ m' hf'
          rw [hsz] at h3 h2
          exact ⟨line, e, b', h1, h2, h3⟩

theorem readString_pre (d : UInt8) (f : Nat) (acc : Bytes) (b : Bufio ρ) (x r : Bytes)
    (m : Pre inv pending fin after b (x ++ d :: r)) (hx : d ∉ x) (hf : x.length < f) :
    ∃ b', Bufio.readString d f acc b = .ok (acc ++ (x ++ [d]), b') ∧ b'.size = b.size ∧
      Pre inv pending fin after b' r := by
  induction f generalizing acc b x with
  | zero => omega
  | succ f ih =>
    obtain ⟨line, e, b', h1, hsz, h2⟩ := readSlice_pre D d (b.size + 2) b _ m (by split <;> omega)
    unfold Bufio.readString
    rw [h1]
    simp only [Res.bind_ok]
    cases e with
    | found =>
      obtain ⟨x', r', rfl, hx', -, hrest, m'⟩ := h2
      have hs := congrArg (splitAt d) hrest
      rw [splitAt_notin _ _ _ hx, splitAt_notin _ _ _ hx'] at hs
      cases hs
      exact ⟨b', rfl, hsz, m'⟩
    | full =>
      obtain ⟨r', hn, hlen, hrest, hb, he, m'⟩ := h2
      have hpos := m.pos
      rcases List.append_eq_append_iff.1 hrest with ⟨u, h3, h4⟩ | ⟨u, h3, h4⟩
      · cases u with
        | nil =>
          rw [List.append_nil] at h3
          rw [List.nil_append] at h4
          subst h3
          subst h4
          obtain ⟨b2, h5, h6, h7⟩ := ih (acc ++ line) b' [] m' (by simp) (by simp; omega)
          refine ⟨b2, ?_, h6.trans hsz, h7⟩
          dsimp only
          rw [h5]
          simp
        | cons c u =>
          cases h4
          rw [h3] at hn
          simp at hn
      · subst h3
        subst h4
        rw [List.mem_append] at hx
        obtain ⟨b2, h5, h6, h7⟩ := ih (acc ++ line) b' u m' (fun h => hx (.inr h)) (by
          rw [List.length_append] at hf; omega)
        refine ⟨b2, ?_, h6.trans hsz, h7⟩
        dsimp only
        rw [h5]
        simp
    | err e =>
      obtain ⟨-, h3, h4, -⟩ := h2
      rw [h3] at h4
      simp at h4

theorem read_pre (k : Nat) (hk : 0 < k) (b : Bufio ρ) (rest : Bytes) (m : Pre inv pending fin after b rest) :
    (Bufio.read k b).1.2 = some fin ∨
    ((Bufio.read k b).1.2 = none ∧ Bufio.calls (Bufio.read k b).2 < Bufio.calls b ∧
      ∃ r, Pre inv pending fin after (Bufio.read k b).2 r) := by
  have hpos := m.pos
  unfold Bufio.read
  by_cases hb : b.buf = []
  · rw [if_pos hb]
    cases he : b.err with
    | some e =>
      left
      dsimp only
      rw [(m.bad _ he).1]
    | none =>
      obtain ⟨m1, m2⟩ := m.good he
      have hL := D.left _ m1
      dsimp only
      by_cases hbig : b.size ≤ k
      · rw [if_pos hbig]
        cases hx : (Source.read k b.src).1.2 with
        | some e =>
          left
          rw [(D.error _ _ _ hk m1 hx).1]
        | none =>
          right
          obtain ⟨h1, h2⟩ := D.stays _ _ hk m1 hx
          refine ⟨rfl, ?_, pending (Source.read k b.src).2, ?_⟩
          · unfold Bufio.calls Bufio.left
            dsimp only
            have hL' := D.left _ h1
            have hi := D.idle _ h1
            have hlen := congrArg List.length h2
            rw [List.length_append] at hlen
            cases hz : (Source.read k b.src).1.1 with
            | nil =>
              have := D.progress _ _ hk m1 hx hz
              rw [hz] at hlen
              simp at hlen
              omega
            | cons c cs =>
              rw [hz] at hlen
              simp at hlen
              omega
          · exact ⟨fun _ => ⟨h1, by simp [hb]⟩, (fun x h => by cases h), by simp [hb], hpos⟩
      · rw [if_neg hbig]
        have hk' : 0 < b.size := by omega
        have hsz := D.size _ _ hk' m1
        by_cases hz : (Source.read b.size b.src).1.1 = []
        · rw [if_pos hz]
          cases hx : (Source.read b.size b.src).1.2 with
          | some e =>
            left
            rw [(D.error _ _ _ hk' m1 hx).1]
          | none =>
            right
            obtain ⟨h1, h2⟩ := D.stays _ _ hk' m1 hx
            refine ⟨rfl, ?_, pending (Source.read b.size b.src).2, ?_⟩
            · have hL' := D.left _ h1
              have hi := D.idle _ h1
              have := D.progress _ _ hk' m1 hx hz
              rw [hz, List.nil_append] at h2
              rw [← h2] at hL'
              unfold Bufio.calls Bufio.left
              dsimp only
              omega
            · exact ⟨fun _ => ⟨h1, by simp [hb]⟩, (fun x h => by cases h), by simp [hb], hpos⟩
        · rw [if_neg hz]
          have hne := List.length_pos_iff.2 hz
          right
          cases hx : (Source.read b.size b.src).1.2 with
          | some e =>
            obtain ⟨h1, h2, h3⟩ := D.error _ _ _ hk' m1 hx
            refine ⟨rfl, ?_, (Source.read b.size b.src).1.1.drop k, ?_⟩
            · unfold Bufio.calls Bufio.left
              dsimp only
              obtain ⟨h4, h5⟩ := D.rest _ h3
              rw [List.length_drop, h2]
              rw [h2] at hne
              omega
            · refine ⟨(fun h => by cases h), ?_, ?_, hpos⟩
              · intro x h; cases h; exact ⟨h1, rfl, h3⟩
              · dsimp only; rw [List.length_drop]; omega
          | none =>
            obtain ⟨h1, h2⟩ := D.stays _ _ hk' m1 hx
            refine ⟨rfl, ?_, (Source.read b.size b.src).1.1.drop k ++ pending (Source.read b.size b.src).2, ?_⟩
            · have hL' := D.left _ h1
              have hi := D.idle _ h1
              have hlen := congrArg List.length h2
              rw [List.length_append] at hlen
              unfold Bufio.calls Bufio.left
              dsimp only
              rw [List.length_drop]
              omega
            · refine ⟨fun _ => ⟨h1, rfl⟩, (fun x h => by cases h), ?_, hpos⟩
              dsimp only; rw [List.length_drop]; omega
  · rw [if_neg hb]
    have hne := List.length_pos_iff.2 hb
    have hfits := m.fits
    right
    refine ⟨rfl, ?_, ?_⟩
    · unfold Bufio.calls Bufio.left
      dsimp only
      rw [List.length_drop]
      omega
    · cases he : b.err with
      | none =>
        obtain ⟨m1, m2⟩ := m.good he
        refine ⟨b.buf.drop k ++ pending b.src, fun _ => ⟨m1, rfl⟩, (fun x h => by cases h), ?_, hpos⟩
        dsimp only; rw [List.length_drop]; omega
      | some e =>
        obtain ⟨m1, m2, m3⟩ := m.bad e he
        refine ⟨b.buf.drop k, (fun h => by cases h), ?_, ?_, hpos⟩
        · intro x h; cases h; exact ⟨m1, rfl, m3⟩
        · dsimp only; rw [List.length_drop]; omega

theorem readAll_pre (f : Nat) (acc : Bytes) (b : Bufio ρ) (rest : Bytes) (m : Pre inv pending fin after b rest)
    (hne : fin ≠ .eof) (hf : Bufio.calls b ≤ f) : Bufio.readAll f acc b = .err fin := by
  induction f generalizing acc b rest with
  | zero => unfold Bufio.calls at hf; omega
  | succ f ih =>
    unfold Bufio.readAll
    dsimp only
    rcases read_pre D (b.room acc.length + 1) (by omega) b rest m with h | ⟨h1, h2, r, h3⟩
    · rw [h]
      dsimp only
      rw [if_neg hne]
    · rw [h1]
      exact ih _ _ r h3 (by omega)


theorem readString_fails (d : UInt8) (f : Nat) (acc : Bytes) (b : Bufio ρ) (x : Bytes)
    (m : Pre inv pending fin after b x) (hx : d ∉ x) (hf : x.length < f) :
    Bufio.readString d f acc b = .err fin := by
  induction f generalizing acc b x with
  | zero => omega
  | succ f ih =>
    obtain ⟨line, e, b', h1, hsz, h2⟩ := readSlice_pre D d (b.size + 2) b _ m (by split <;> omega)
    unfold Bufio.readString
    rw [h1]
    simp only [Res.bind_ok]
    cases e with
    | found =>
      obtain ⟨x', r', rfl, hx', -, hrest, m'⟩ := h2
      rw [hrest] at hx
      simp at hx
    | full =>
      obtain ⟨r', hn, hlen, hrest, hb, he, m'⟩ := h2
      have hpos := m.pos
      subst hrest
      rw [List.mem_append] at hx
      rw [List.length_append] at hf
      exact ih (acc ++ line) b' r' m' (fun h => hx (.inr h)) (by omega)
    | err e =>
      dsimp only
      rw [h2.1]

/-- `ReadLine` before the failure, if there is a line feed to come. -/
theorem readLine_pre (b : Bufio ρ) (x r : Bytes) (m : Pre inv pending fin after b (x ++ LF :: r)) (hx : LF ∉ x)
    (hN : 2 ≤ b.size) (w : Bytes) (e : Err) :
    ∃ l v b', Bufio.readLine b = .ok (l, b') ∧ b'.size = b.size ∧
      Pre inv pending fin after b' (v ++ r) ∧ (v = [] ∨ ∃ v', v = v' ++ [LF] ∧ LF ∉ v') ∧
      v.length < x.length + 1 ∧
      Stream.readLine ⟨x ++ LF :: (r ++ w), e, b.size⟩ = .ok (l, ⟨v ++ (r ++ w), e, b.size⟩) := by
  obtain ⟨line, e', b', h1, hsz, h2⟩ := readSlice_pre D LF (b.size + 2) b _ m (by split <;> omega)
  unfold Bufio.readLine
  rw [h1]
  simp only [Res.bind_ok]
  cases e' with
  | found =>
    obtain ⟨x', r', rfl, hx', hlt, hrest, m'⟩ := h2
    have hs := congrArg (splitAt LF) hrest
    rw [splitAt_notin _ _ _ hx, splitAt_notin _ _ _ hx'] at hs
    cases hs
    refine ⟨dropCR x, [], b', ?_, hsz, m', .inl rfl, by simp, ?_⟩
    · simp only [List.getLast?_concat, if_true, List.dropLast_concat]
      unfold dropCR
      by_cases hc : x.getLast? = some CR
      · have : x ≠ [] := by rintro rfl; simp at hc
        have := List.length_pos_iff.2 this
        rw [if_pos ⟨by simp; omega, hc⟩, if_pos hc]
      · rw [if_neg (fun h => hc h.2), if_neg hc]
    · exact Stream.readLine_short_line _ _ hx hlt
  | full =>
    obtain ⟨r', hn, hlen, hrest, hb, he, m'⟩ := h2
    have hsplit : ∃ u, x = line ++ u ∧ r' = u ++ LF :: r := by
      rcases List.append_eq_append_iff.1 hrest with ⟨u, h3, h4⟩ | ⟨u, h3, h4⟩
      · cases u with
        | nil => exact ⟨[], by rw [List.append_nil] at h3 ⊢; exact h3.symm, h4.symm⟩
        | cons c u =>
          cases h4
          rw [h3] at hn
          simp at hn
      · exact ⟨u, h3, h4⟩
    obtain ⟨u, rfl, rfl⟩ := hsplit
    rw [List.mem_append] at hx
    dsimp only
    by_cases hc : line.getLast? = some CR
    · rw [if_pos hc]
      obtain ⟨l, rfl⟩ := List.getLast?_eq_some_iff.1 hc
      rw [List.length_append] at hlen
      refine ⟨_, CR :: u ++ [LF], _, rfl, hsz, ?_, .inr ⟨CR :: u, rfl, ?_⟩, ?_, ?_⟩
      · obtain ⟨m1, m2⟩ := m'.good he
        refine ⟨fun _ => ⟨m1, ?_⟩, (fun y h => by rw [he] at h; cases h), ?_, m'.pos⟩
        · dsimp only
          rw [hb] at m2 ⊢
          simp only [List.nil_append] at m2
          rw [← m2]
          simp
        · dsimp only
          rw [hb, hsz]
          simp
          omega
      · simp only [List.mem_cons, not_or]
        exact ⟨by decide, fun h => hx (.inr h)⟩
      · simp at hlen ⊢
        omega
      · have := Stream.readLine_fragment_cr (N := b.size) (l := l) (u ++ LF :: (r ++ w)) e (by simpa using hlen)
          (fun h => hn (by simp [h]))
        simp only [List.dropLast_concat]
        simpa using this
    · rw [if_neg hc]
      refine ⟨_, u ++ [LF], _, rfl, hsz, by simpa using m', .inr ⟨u, rfl, fun h => hx (.inr h)⟩, ?_, ?_⟩
      · simp; omega
      · have := Stream.readLine_fragment (N := b.size) (l := line) (u ++ LF :: (r ++ w)) e hlen (by omega) hn hc
        simpa using this
  | err e =>
    obtain ⟨-, h3, h4, -⟩ := h2
    rw [h3] at h4
    simp at h4

/-- `ReadLine` of the line in which the failure falls. -/
theorem readLine_cut (b : Bufio ρ) (a : Bytes) (m : Pre inv pending fin after b a) (ha : LF ∉ a)
    (hN : a.length < b.size) :
    (a = [] ∧ Bufio.readLine b = .err fin) ∨
    (a ≠ [] ∧ ∃ b', Bufio.readLine b = .ok (a, b') ∧ b'.size = b.size ∧ b'.buf = [] ∧ b'.err = none ∧
      after b'.src) := by
  obtain ⟨line, e', b', h1, hsz, h2⟩ := readSlice_pre D LF (b.size + 2) b _ m (by split <;> omega)
  unfold Bufio.readLine
  rw [h1]
  simp only [Res.bind_ok]
  cases e' with
  | found =>
    obtain ⟨x', r', rfl, hx', hlt, hrest, m'⟩ := h2
    rw [hrest] at ha
    simp at ha
  | full =>
    obtain ⟨r', hn, hlen, hrest, hb, he, m'⟩ := h2
    have := congrArg List.length hrest
    rw [List.length_append] at this
    omega
  | err e =>
    obtain ⟨rfl, rfl, -, -, hb, he, hz⟩ := h2
    dsimp only
    cases line with
    | nil => exact .inl ⟨rfl, by simp⟩
    | cons c cs => exact .inr ⟨by simp, b', by simp, hsz, hb, he, hz⟩

/-- `ReadLine` of one buffer full of the line in which the failure falls. -/
theorem readLine_torn (b : Bufio ρ) (f a : Bytes) (m : Pre inv pending fin after b (f ++ a)) (hf : LF ∉ f)
    (hn : f.length = b.size) (ha : LF ∉ a) (hne : a ≠ []) :
    (f.getLast? ≠ some CR → ∃ b', Bufio.readLine b = .ok (f, b') ∧ b'.size = b.size ∧
      Pre inv pending fin after b' a) ∧
    (∀ l, f = l ++ [CR] → ∃ b', Bufio.readLine b = .ok (l, b') ∧ b'.size = b.size ∧
      Pre inv pending fin after b' (CR :: a)) := by
  have hpa := List.length_pos_iff.2 hne
  obtain ⟨line, e', b', h1, hsz, h2⟩ := readSlice_pre D LF (b.size + 2) b _ m (by split <;> omega)
  unfold Bufio.readLine
  rw [h1]
  simp only [Res.bind_ok]
  cases e' with
  | found =>
    obtain ⟨x', r', rfl, hx', hlt, hrest, m'⟩ := h2
    have : LF ∈ f ++ a := by rw [hrest]; simp
    rcases List.mem_append.1 this with h | h
    · exact absurd h hf
    · exact absurd h ha
  | err e =>
    obtain ⟨-, rfl, -, h3, -⟩ := h2
    rw [List.length_append] at h3
    omega
  | full =>
    obtain ⟨r', hn', hlen, hrest, hb, he, m'⟩ := h2
    obtain ⟨rfl, rfl⟩ := List.append_inj hrest (by omega)
    dsimp only
    constructor
    · intro hc
      rw [if_neg hc]
      exact ⟨_, rfl, hsz, m'⟩
    · rintro l rfl
      rw [if_pos (by simp)]
      simp only [List.dropLast_concat]
      refine ⟨_, rfl, hsz, ?_⟩
      obtain ⟨m1, m2⟩ := m'.good he
      rw [hb] at m2
      refine ⟨fun _ => ⟨m1, ?_⟩, (fun y h => by rw [he] at h; cases h), ?_, m'.pos⟩
      · dsimp only
        rw [hb, m2]
        simp
      · dsimp only
        rw [hb, hsz]
        simp at hlen ⊢
        omega

end

theorem torn_ne {N : Nat} {a r : Bytes} (h : Torn N a r) : a ≠ [] := by
  induction h with
  | rest hne _ => exact hne
  | cut _ _ _ ih => simp [ih]
  | cutCR _ _ _ _ => simp

/-- Lines as far as the last line feed. -/
def Whole (u : Bytes) : Prop := u = [] ∨ u.getLast? = some LF

theorem whole_cons {x r : Bytes} (h : Whole (x ++ LF :: r)) : Whole r := by
  cases r with
  | nil => exact .inl rfl
  | cons c r =>
    right
    rcases h with h | h
    · simp at h
    · rw [List.getLast?_append, List.getLast?_cons_cons] at h
      cases hc : (c :: r).getLast? with
      | none => simp at hc
      | some z => rw [hc] at h; simpa using h

theorem whole_split {u : Bytes} (h : Whole u) : u = [] ∨ ∃ x r, u = x ++ LF :: r ∧ LF ∉ x ∧ Whole r := by
  cases hs : splitAt LF u with
  | some p =>
    obtain ⟨h1, h2⟩ := splitAt_some _ _ _ _ hs
    exact .inr ⟨p.1, p.2, h1, h2, whole_cons (h1 ▸ h)⟩
  | none =>
    left
    rcases h with h | h
    · exact h
    · exact absurd (List.mem_of_getLast? h) ((splitAt_none _ _).1 hs)

theorem whole_line {v r : Bytes} (hv : v = [] ∨ ∃ v', v = v' ++ [LF] ∧ LF ∉ v') (hr : Whole r) :
    Whole (v ++ r) := by
  rcases hv with rfl | ⟨v', rfl, -⟩
  · exact hr
  · rcases hr with rfl | h
    · right; simp
    · right
      rw [List.getLast?_append, h]
      rfl

/-! ## The decoders -/

/-- Both do the same, with results related by `Q`; or the first fails with `fin` where
the second succeeds with a result of `L`. -/
inductive Lap {α β : Type} (fin : Err) (Q : α → β → Prop) (L : β → Prop) : Res α → Res β → Prop where
  | ok {a : α} {b : β} (h : Q a b) : Lap fin Q L (.ok a) (.ok b)
  | err (e : Err) : Lap fin Q L (.err e) (.err e)
  | panic : Lap fin Q L .panic .panic
  | lost {b : β} (h : L b) : Lap fin Q L (.err fin) (.ok b)

theorem Both.lap {α β α' β' : Type} {fin : Err} {Q : α → β → Prop} {Q' : α' → β' → Prop} {L : β' → Prop}
    {a : Res α} {b : Res β} {f : α → Res α'} {g : β → Res β'} (h : Both Q a b)
    (hf : ∀ x y, Q x y → Lap fin Q' L (f x) (g y)) : Lap fin Q' L (a >>= f) (b >>= g) := by
  cases h with
  | ok h => exact hf _ _ h
  | err e => exact .err e
  | panic => exact .panic

theorem Lap.same {α α' β' : Type} {fin : Err} {Q' : α' → β' → Prop} {L : β' → Prop} (a : Res α)
    {f : α → Res α'} {g : α → Res β'} (hf : ∀ x, Lap fin Q' L (f x) (g x)) :
    Lap fin Q' L (a >>= f) (a >>= g) := by
  cases a with
  | ok x => exact hf x
  | err e => exact .err e
  | panic => exact .panic

theorem Lap.mono {α β : Type} {fin : Err} {Q Q' : α → β → Prop} {L : β → Prop} {a : Res α} {b : Res β}
    (h : Lap fin Q L a b) (hq : ∀ x y, Q x y → Q' x y) : Lap fin Q' L a b := by
  cases h with
  | ok h => exact .ok (hq _ _ h)
  | err e => exact .err e
  | panic => exact .panic
  | lost h => exact .lost h

section

variable {σ τ : Type} [Reader σ] [Reader τ]

/-- The two readers give the same lines. What is left of them is the same and at most
`n` bytes, or the first reader fails with `fin` and the second has more than `n`. -/
structure LapseSim (fin : Err) (n : Nat) (R : σ → τ → Prop) : Prop extends SameLines R where
  readAll : ∀ s t, R s t →
    (∃ x s' t', Reader.readAll s = .ok (x, s') ∧ Reader.readAll t = .ok (x, t') ∧ x.length ≤ n ∧
      R s' t' ∧ Reader.left s' ≤ Reader.left s ∧ Reader.left t' ≤ Reader.left t) ∨
    (∃ x t', Reader.readAll s = .err fin ∧ Reader.readAll t = .ok (x, t') ∧ n < x.length ∧
      Reader.readLine t' = .err .eof)

variable {fin : Err} {n : Nat} {R : σ → τ → Prop} (S : LapseSim fin n R)
include S

theorem lapse_commitLine (f g : Nat) (c : Commit) (l : Bytes) (s : σ) (t : τ) (h : R s t)
    (hc : c.message.length ≤ n) (hf : Reader.left s < f) (hg : Reader.left t < g) :
    Lap fin (fun p q => p.1 = q.1 ∧ p.1.message.length ≤ n ∧ R p.2 q.2 ∧ Reader.left p.2 ≤ Reader.left s ∧
      Reader.left q.2 ≤ Reader.left t) (fun q => n < q.1.message.length ∧ Reader.readLine q.2 = .err .eof)
      (commitLine f c l s) (commitLine g c l t) := by
  induction f generalizing g c l s t with
  | zero => omega
  | succ f ih =>
    cases g with
    | zero => omega
    | succ g =>
      have stay : ∀ c' : Commit, c'.message = c.message →
          Lap fin (fun p q => p.1 = q.1 ∧ p.1.message.length ≤ n ∧ R p.2 q.2 ∧ Reader.left p.2 ≤ Reader.left s ∧
            Reader.left q.2 ≤ Reader.left t) (fun q => n < q.1.message.length ∧
              Reader.readLine q.2 = .err .eof) (Res.ok (c', s)) (Res.ok (c', t)) := fun c' hm =>
        .ok ⟨rfl, by rw [hm]; exact hc, h, Nat.le_refl _, Nat.le_refl _⟩
      unfold commitLine
      split
      · exact .same _ fun _ => .same _ fun _ => .same _ fun x => stay _ rfl
      split
      · exact .same _ fun _ => .same _ fun _ => .same _ fun x => stay _ rfl
      split
      · exact .same _ fun x => stay _ rfl
      split
      · exact .same _ fun x => stay _ rfl
      split
      · exact .same _ fun x => stay _ rfl
      split
      · refine .same _ fun _ => .same _ fun sha => ?_
        unfold readMergeTag
        refine Both.lap (Q := fun p q => Went R s t p q ∧ (p.1.2 ≠ none →
          Reader.left p.2 < Reader.left s ∧ Reader.left q.2 < Reader.left t)) ?_ ?_
        · exact .same _ fun x => ls_mergeTag S.toSameLines _ _ _ s t h (Nat.lt_succ_self _) (Nat.lt_succ_self _)
        · rintro ⟨⟨mt, r⟩, s2⟩ ⟨⟨mt', r'⟩, t2⟩ ⟨⟨he, hR, ha, hb⟩, hlt⟩
          cases he
          cases r with
          | none => exact .ok ⟨rfl, hc, hR, ha, hb⟩
          | some l =>
            have hlt := hlt (by simp)
            simp only at hlt ha hb
            exact (ih g { c with mergetag := c.mergetag ++ [mt] } l s2 t2 hR hc (by omega) (by omega)).mono fun x y hq =>
              ⟨hq.1, hq.2.1, hq.2.2.1, by have := hq.2.2.2.1; omega, by have := hq.2.2.2.2; omega⟩
      split
      · refine (ls_gpgSig S.toSameLines s t h).lap ?_
        rintro ⟨x, s2⟩ ⟨y, t2⟩ ⟨he, hR, ha, hb⟩
        cases he
        exact .ok ⟨rfl, hc, hR, ha, hb⟩
      split
      · rcases S.readAll s t h with ⟨x, s', t', h1, h2, h3, h4, h5, h6⟩ | ⟨x, t', h1, h2, h3, h4⟩
        · rw [h1, h2]; exact .ok ⟨rfl, h3, h4, h5, h6⟩
        · rw [h1, h2]; exact .lost ⟨h3, h4⟩
      · exact stay _ rfl

theorem lapse_commitLoop (f g : Nat) (c : Commit) (s : σ) (t : τ) (h : R s t) (hc : c.message.length ≤ n)
    (hf : Reader.left s < f) (hg : Reader.left t < g) :
    Lap fin (fun a b => a = b ∧ a.message.length ≤ n) (fun b => n < b.message.length)
      (commitLoop f c s) (commitLoop g c t) := by
  induction f generalizing g c s t with
  | zero => omega
  | succ f ih =>
    cases g with
    | zero => omega
    | succ g =>
      unfold commitLoop
      rcases S.readLine s t h with ⟨e, h1, h2⟩ | ⟨l, s', t', h1, h2, h3, h4, h5⟩
      · rw [h1, h2]
        cases e <;> first | exact .err _ | exact .ok ⟨rfl, hc⟩
      · rw [h1, h2]
        have hl := lapse_commitLine S (Reader.left s' + 1) (Reader.left t' + 1) c l s' t' h3 hc
          (Nat.lt_succ_self _) (Nat.lt_succ_self _)
        revert hl
        dsimp only
        generalize commitLine (Reader.left s' + 1) c l s' = A
        generalize commitLine (Reader.left t' + 1) c l t' = B
        intro hl
        cases hl with
        | ok hq =>
          rename_i p q
          obtain ⟨c2, s2⟩ := p
          obtain ⟨d2, t2⟩ := q
          obtain ⟨hc2, hm, hR, ha, hb⟩ := hq
          simp only at ha hb hc2 hm hR
          subst hc2
          exact ih g c2 s2 t2 hR hm (by omega) (by omega)
        | err e => exact .err e
        | panic => exact .panic
        | lost hq =>
          rename_i q
          obtain ⟨d2, t2⟩ := q
          cases g with
          | zero => omega
          | succ g =>
            have : commitLoop (g + 1) d2 t2 = .ok d2 := by
              unfold commitLoop
              rw [hq.2]
            simp only [Res.bind_ok, Res.bind_err]
            rw [this]
            exact .lost hq.1

theorem lapse_tagLine (c : Tag) (l : Bytes) (s : σ) (t : τ) (h : R s t) (hc : c.message.length ≤ n) :
    Lap fin (fun p q => p.1 = q.1 ∧ p.1.message.length ≤ n ∧ R p.2 q.2 ∧ Reader.left p.2 ≤ Reader.left s ∧
      Reader.left q.2 ≤ Reader.left t) (fun q => n < q.1.message.length ∧ Reader.readLine q.2 = .err .eof)
      (tagLine c l s) (tagLine c l t) := by
  unfold tagLine
  split
  · exact .same _ fun _ => .same _ fun _ => .same _ fun x => .ok ⟨rfl, hc, h, Nat.le_refl _, Nat.le_refl _⟩
  iterate 3 (
    split
    · exact .same _ fun _ => .ok ⟨rfl, hc, h, Nat.le_refl _, Nat.le_refl _⟩)
  split
  · rcases S.readAll s t h with ⟨x, s', t', h1, h2, h3, h4, h5, h6⟩ | ⟨x, t', h1, h2, h3, h4⟩
    · rw [h1, h2]; exact .ok ⟨rfl, h3, h4, h5, h6⟩
    · rw [h1, h2]; exact .lost ⟨h3, h4⟩
  · exact .ok ⟨rfl, hc, h, Nat.le_refl _, Nat.le_refl _⟩

theorem lapse_tagLoop (f g : Nat) (c : Tag) (s : σ) (t : τ) (h : R s t) (hc : c.message.length ≤ n)
    (hf : Reader.left s < f) (hg : Reader.left t < g) :
    Lap fin (fun a b => a = b ∧ a.message.length ≤ n) (fun b => n < b.message.length)
      (tagLoop f c s) (tagLoop g c t) := by
  induction f generalizing g c s t with
  | zero => omega
  | succ f ih =>
    cases g with
    | zero => omega
    | succ g =>
      unfold tagLoop
      rcases S.readLine s t h with ⟨e, h1, h2⟩ | ⟨l, s', t', h1, h2, h3, h4, h5⟩
      · rw [h1, h2]
        cases e <;> first | exact .err _ | exact .ok ⟨rfl, hc⟩
      · rw [h1, h2]
        have hl := lapse_tagLine S c l s' t' h3 hc
        revert hl
        dsimp only
        generalize tagLine c l s' = A
        generalize tagLine c l t' = B
        intro hl
        cases hl with
        | ok hq =>
          rename_i p q
          obtain ⟨c2, s2⟩ := p
          obtain ⟨d2, t2⟩ := q
          obtain ⟨hc2, hm, hR, ha, hb⟩ := hq
          simp only at ha hb hc2 hm hR
          subst hc2
          exact ih g c2 s2 t2 hR hm (by omega) (by omega)
        | err e => exact .err e
        | panic => exact .panic
        | lost hq =>
          rename_i q
          obtain ⟨d2, t2⟩ := q
          cases g with
          | zero => omega
          | succ g =>
            have : tagLoop (g + 1) d2 t2 = .ok d2 := by
              unfold tagLoop
              rw [hq.2]
            simp only [Res.bind_ok, Res.bind_err]
            rw [this]
            exact .lost hq.1

end

/-! ## The readers -/

section

variable {ρ : Type} [Source ρ] {inv : ρ → Prop} {pending : ρ → Bytes} {fin : Err} {after : ρ → Prop}
variable {inv' : ρ → Prop} {pending' : ρ → Bytes} {eager : Prop} {y : Bytes}

/-- The buffered reader against the stream in which the failure is a line end. -/
def LapseRel (inv : ρ → Prop) (pending : ρ → Bytes) (fin : Err) (after : ρ → Prop) (inv' : ρ → Prop)
    (pending' : ρ → Bytes) (eager : Prop) (y : Bytes) (b : Bufio ρ) (t : Stream) : Prop :=
  2 ≤ b.size ∧
  ((∃ u a r e, Pre inv pending fin after b (u ++ a) ∧ Whole u ∧ LF ∉ a ∧ Torn b.size a r ∧ LineEnd b.size r e ∧
      t = ⟨u ++ (a ++ (e ++ y)), .eof, b.size⟩) ∨
    (Match inv' pending' .eof eager b t ∧ t.rest.length ≤ y.length))

theorem lineEnd_pos {N : Nat} {r e : Bytes} (h : LineEnd N r e) : 0 < e.length := by
  rcases h with ⟨rfl, -⟩ | ⟨rfl, -⟩ <;> simp

/-- The stream with the line end hands out the rest of the torn line unchanged. -/
theorem lineEnd_reads {N : Nat} {r e : Bytes} (h : LineEnd N r e) (hr : LF ∉ r) (hn : r.length < N) (y : Bytes)
    (x : Err) : Stream.readLine ⟨r ++ (e ++ y), x, N⟩ = .ok (r, ⟨y, x, N⟩) := by
  rcases h with ⟨rfl, hc⟩ | ⟨rfl, hl⟩
  · have := Stream.readLine_short_line (N := N) (a := r) y x hr hn
    rw [show dropCR r = r from if_neg hc] at this
    simpa using this
  · have := Stream.readLine_short_line (N := N) (a := r ++ [CR]) y x (by
      rw [List.mem_append]
      rintro (h | h)
      · exact hr h
      · simp at h; exact absurd h (by decide)) (by simp; omega)
    rw [dropCR_append_cr] at this
    simpa using this

theorem lapse_sim (D : Lapses ρ inv pending fin after y.length) (D' : Delivers ρ inv' pending' .eof eager)
    (hfin : fin ≠ .eof) (ha : ∀ s, after s → inv' s ∧ pending' s = y)
    (hy : eager → y.getLast? ≠ some CR) :
    LapseSim (σ := Bufio ρ) (τ := Stream) fin y.length
      (LapseRel inv pending fin after inv' pending' eager y) where
  readLine b t := by
    rintro ⟨hN, ⟨u, a, k, e, m, hu, hla, htorn, hend, rfl⟩ | ⟨m, hle⟩⟩
    · right
      have hL : Reader.left b = (u ++ a).length + y.length := pre_left D m
      rcases whole_split hu with rfl | ⟨x, r, rfl, hx, hr⟩
      · cases htorn with
        | rest hne hn =>
          rcases readLine_cut D b a m hla hn with ⟨h, -⟩ | ⟨-, b', h1, h2, h3, h4, h5⟩
          · exact absurd h hne
          · obtain ⟨i1, i2⟩ := ha _ h5
            have m' : Match inv' pending' .eof eager b' ⟨y, .eof, b.size⟩ :=
              ⟨⟨i1, by rw [h3, i2]; rfl, rfl, h2.symm, by rw [h3]; simp, by omega,
                (fun z hz => by rw [h4] at hz; cases hz), (fun _ hz => absurd h4 hz)⟩, fun he => ⟨rfl, hy he⟩⟩
            refine ⟨a, b', ⟨y, .eof, b.size⟩, h1, lineEnd_reads hend hla hn y .eof,
              ⟨by omega, .inr ⟨m', Nat.le_refl _⟩⟩, ?_, ?_⟩
            · rw [hL]
              have hL' : Reader.left b' = y.length := by
                show b'.left = _
                unfold Bufio.left
                rw [h3, (D.rest _ h5).1]
                simp
              have := List.length_pos_iff.2 hne
              rw [hL', List.length_append]
              omega
            · have := lineEnd_pos hend
              show y.length < ([] ++ (a ++ (e ++ y))).length
              simp
              omega
        | @cut f a _ hn hc h =>
          rw [List.mem_append, not_or] at hla
          obtain ⟨b', h1, h2, h3⟩ := (readLine_torn D b f a (by simpa using m) hla.1 hn hla.2 (torn_ne h)).1 hc
          refine ⟨f, b', ⟨[] ++ (a ++ (e ++ y)), .eof, b.size⟩, h1, ?_, ⟨by omega, .inl ⟨[], a, k, e,
            by simpa using h3, .inl rfl, hla.2, by rw [h2]; exact h, by rw [h2]; exact hend, by rw [h2]⟩⟩, ?_, ?_⟩
          · have := Stream.readLine_fragment (N := b.size) (l := f) (a ++ (e ++ y)) .eof hn (by omega) hla.1 hc
            simpa using this
          · rw [hL, show Reader.left b' = _ from pre_left D h3]
            simp
            omega
          · show ([] ++ (a ++ (e ++ y))).length < ([] ++ (f ++ a ++ (e ++ y))).length
            simp
            omega
        | @cutCR f a _ hn hne h =>
          rw [List.mem_append, List.mem_cons, not_or, not_or] at hla
          have hf : LF ∉ f ++ [CR] := by
            rw [List.mem_append]
            rintro (h | h)
            · exact hla.1 h
            · simp at h; exact absurd h (by decide)
          obtain ⟨b', h1, h2, h3⟩ := (readLine_torn D b (f ++ [CR]) a (by simpa using m) hf (by simpa using hn)
            hla.2.2 hne).2 f rfl
          refine ⟨f, b', ⟨[] ++ (CR :: a ++ (e ++ y)), .eof, b.size⟩, h1, ?_, ⟨by omega, .inl ⟨[], CR :: a, k, e,
            by simpa using h3, .inl rfl, by simp only [List.mem_cons, not_or]; exact hla.2, by rw [h2]; exact h,
            by rw [h2]; exact hend, by rw [h2]⟩⟩, ?_, ?_⟩
          · have := Stream.readLine_fragment_cr (N := b.size) (l := f) (a ++ (e ++ y)) .eof hn hla.1
            simpa using this
          · rw [hL, show Reader.left b' = _ from pre_left D h3]
            simp
            omega
          · show ([] ++ (CR :: a ++ (e ++ y))).length < ([] ++ (f ++ CR :: a ++ (e ++ y))).length
            simp
            omega
      · have m1 : Pre inv pending fin after b (x ++ LF :: (r ++ a)) := by simpa using m
        obtain ⟨l, v, b', h1, h2, h3, h4, h5, h6⟩ := readLine_pre D b x (r ++ a) m1 hx hN (e ++ y) .eof
        refine ⟨l, b', ⟨(v ++ r) ++ (a ++ (e ++ y)), .eof, b.size⟩, h1, ?_, ⟨by omega, .inl ⟨v ++ r, a, k, e,
          by simpa using h3, whole_line h4 hr, hla, by rw [h2]; exact htorn, by rw [h2]; exact hend, by rw [h2]⟩⟩,
          ?_, ?_⟩
        · simpa using h6
        · rw [hL, show Reader.left b' = _ from pre_left D h3]
          simp
          omega
        · show ((v ++ r) ++ (a ++ (e ++ y))).length < (x ++ LF :: r ++ (a ++ (e ++ y))).length
          simp
          omega
    · have hL : Reader.left b = t.rest.length := (bufio_sim D').left _ _ m
      have h := (bufio_sim D').readLine b t m
      have hsz := m.any.size
      cases h1 : Reader.readLine b with
      | err e =>
        cases h2 : Reader.readLine t with
        | err e' => rw [h1, h2] at h; exact .inl ⟨e, rfl, by rw [show e = e' from h]⟩
        | ok p => rw [h1, h2] at h; exact h.elim
        | panic => rw [h1, h2] at h; exact h.elim
      | panic =>
        cases h2 : Reader.readLine t with
        | err e' => rw [h1, h2] at h; exact h.elim
        | ok p => rw [h1, h2] at h; exact h.elim
        | panic => exact absurd h2 (Stream.readLine_ne_panic t)
      | ok p =>
        cases h2 : Reader.readLine t with
        | err e' => rw [h1, h2] at h; exact h.elim
        | panic => rw [h1, h2] at h; exact h.elim
        | ok q =>
          rw [h1, h2] at h
          obtain ⟨l, b'⟩ := p
          obtain ⟨l', t'⟩ := q
          obtain ⟨rfl, m'⟩ := h
          obtain ⟨g1, g2, g3⟩ := Stream.readLine_shrinks t t' l (by omega) h2
          have hL' : Reader.left b' = t'.rest.length := (bufio_sim D').left _ _ m'
          exact .inr ⟨l, b', t', rfl, rfl, ⟨by rw [← m'.any.size, g3]; omega, .inr ⟨m', by omega⟩⟩,
            by rw [hL, hL']; exact g1, g1⟩
  readAll b t := by
    rintro ⟨hN, ⟨u, a, k, e, m, hu, hla, htorn, hend, rfl⟩ | ⟨m, hle⟩⟩
    · right
      refine ⟨u ++ (a ++ (e ++ y)), ⟨[], .eof, b.size⟩, ?_, rfl, ?_, rfl⟩
      · exact readAll_pre D _ _ b _ m hfin (Nat.le_refl _)
      · have := lineEnd_pos hend
        simp
        omega
    · left
      have hL : Reader.left b = t.rest.length := (bufio_sim D').left _ _ m
      have h := (bufio_sim D').readAll b t m
      have ht : Reader.readAll t = .ok (t.rest, { t with rest := [] }) := by
        show Stream.readAll t = _
        unfold Stream.readAll
        rw [if_pos m.any.last]
      rw [ht] at h
      cases h1 : Reader.readAll b with
      | err e => rw [h1] at h; exact h.elim
      | panic => rw [h1] at h; exact h.elim
      | ok p =>
        rw [h1] at h
        obtain ⟨x, b'⟩ := p
        obtain ⟨rfl, m'⟩ := h
        have hL' : Reader.left b' = 0 := (bufio_sim D').left _ _ m'
        have hs := m'.any.size
        have hs2 := m.any.size
        simp only at hs
        exact ⟨t.rest, b', _, rfl, ht, hle, ⟨by omega, .inr ⟨m', by simp⟩⟩, by omega, by
          show ([] : Bytes).length ≤ _
          simp⟩

/-- The buffered reader against the stream that ends in the failure. -/
def StopRel (inv : ρ → Prop) (pending : ρ → Bytes) (fin : Err) (after : ρ → Prop) (b : Bufio ρ) (t : Stream) :
    Prop :=
  2 ≤ b.size ∧ ∃ u, Pre inv pending fin after b u ∧ Whole u ∧ t = ⟨u, fin, b.size⟩

theorem stop_sim {n : Nat} (D : Lapses ρ inv pending fin after n) (hfin : fin ≠ .eof) :
    LineSim (σ := Bufio ρ) (τ := Stream) (StopRel inv pending fin after) Eq where
  readLine b t := by
    rintro ⟨hN, u, m, hu, rfl⟩
    have hL : Reader.left b = u.length + n := pre_left D m
    rcases whole_split hu with rfl | ⟨x, r, rfl, hx, hr⟩
    · left
      rcases readLine_cut D b [] m (by simp) (by simp; omega) with ⟨-, h⟩ | ⟨h, -⟩
      · exact ⟨fin, h, rfl⟩
      · exact absurd rfl h
    · right
      obtain ⟨l, v, b', h1, h2, h3, h4, h5, h6⟩ := readLine_pre D b x r m hx hN [] fin
      refine ⟨l, b', ⟨v ++ r, fin, b.size⟩, h1, by simpa using h6,
        ⟨by omega, v ++ r, h3, whole_line h4 hr, by rw [h2]⟩, ?_, ?_⟩
      · rw [hL, show Reader.left b' = _ from pre_left D h3]
        simp
        omega
      · show (v ++ r).length < (x ++ LF :: r).length
        simp
        omega
  readAll b t := by
    rintro ⟨hN, u, m, hu, rfl⟩
    left
    exact ⟨fin, readAll_pre D _ _ b _ m hfin (Nat.le_refl _), by
      show Stream.readAll _ = _
      unfold Stream.readAll
      rw [if_neg hfin]⟩

end

end Verif
