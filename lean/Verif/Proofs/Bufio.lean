import Verif.Spec.Source
import Verif.Proofs.Sim
import Verif.Proofs.Stream

/-!
# The abstract reader describes `bufio.Reader`
-/

namespace Verif

open Spec

/-- The state of the buffered reader and the abstract stream it stands for. -/
structure MatchAny {ρ : Type} [Source ρ] (inv : ρ → Prop) (pending : ρ → Bytes) (fin : Err) (eager : Prop)
    (b : Bufio ρ) (s : Stream) : Prop where
  ok : inv b.src
  rest : s.rest = b.buf ++ pending b.src
  last : s.fin = fin
  size : s.bufsz = b.size
  fits : b.buf.length ≤ b.size
  pos : 1 ≤ b.size
  err : ∀ x, b.err = some x → x = fin ∧ pending b.src = []
  lazy : ¬ eager → b.err ≠ none → b.buf.length < b.size

/-- The same, and nothing in the way the error is delivered makes a difference. -/
structure Match {ρ : Type} [Source ρ] (inv : ρ → Prop) (pending : ρ → Bytes) (fin : Err) (eager : Prop)
    (b : Bufio ρ) (s : Stream) : Prop where
  any : MatchAny inv pending fin eager b s
  hasty : eager → fin = .eof ∧ s.rest.getLast? ≠ some CR

theorem getLast?_suffix {a b : Bytes} {c : UInt8} (h : (a ++ b).getLast? ≠ some c) : b.getLast? ≠ some c := by
  rw [List.getLast?_append] at h
  cases hb : b.getLast? with
  | none => simp
  | some x => rw [hb] at h; simpa using h

section

variable {ρ : Type} [Source ρ] {inv : ρ → Prop} {pending : ρ → Bytes} {fin : Err} {eager : Prop}
variable (D : Delivers ρ inv pending fin eager)
include D

theorem fill_match (i : Nat) (b : Bufio ρ) (s : Stream) (m : MatchAny inv pending fin eager b s)
    (he : b.err = none) (hl : b.buf.length < b.size) (hi : Source.idle b.src < i) :
    MatchAny inv pending fin eager (Bufio.fill i b) s ∧ (Bufio.fill i b).size = b.size ∧
      ((Bufio.fill i b).err ≠ none ∧ b.buf.length ≤ (Bufio.fill i b).buf.length ∨
        b.buf.length < (Bufio.fill i b).buf.length) := by
  induction i generalizing b with
  | zero => omega
  | succ i ih =>
    have hk : 0 < b.size - b.buf.length := by omega
    have hs := D.size _ _ hk m.ok
    have hd := D.data _ _ hk m.ok
    unfold Bufio.fill
    dsimp only
    cases hr : (Source.read (b.size - b.buf.length) b.src).1.2 with
    | some e =>
      have h1 := D.err _ _ _ hk m.ok hr
      have h2 := D.together _ _ _ hk m.ok hr
      refine ⟨⟨D.stays _ _ hk m.ok, ?_, m.last, m.size, ?_, m.pos, ?_, ?_⟩, rfl, ?_⟩
      · dsimp only; rw [m.rest, hd, List.append_assoc]
      · dsimp only; rw [List.length_append]; omega
      · intro x hx
        simp only [Option.some.injEq] at hx
        exact ⟨hx ▸ h1.1, h1.2⟩
      · intro hne _
        have : (Source.read (b.size - b.buf.length) b.src).1.1 = [] := by
          apply Classical.byContradiction
          intro hh
          exact hne (h2 hh)
        dsimp only; rw [this, List.append_nil]; exact hl
      · left; dsimp only; rw [List.length_append]; exact ⟨by simp, by omega⟩
    | none =>
      dsimp only
      have m' : MatchAny inv pending fin eager
          { b with buf := b.buf ++ (Source.read (b.size - b.buf.length) b.src).1.1,
                   src := (Source.read (b.size - b.buf.length) b.src).2 } s := by
        refine ⟨D.stays _ _ hk m.ok, ?_, m.last, m.size, ?_, m.pos, ?_, ?_⟩
        · dsimp only; rw [m.rest, hd, List.append_assoc]
        · dsimp only; rw [List.length_append]; omega
        · intro x hx; dsimp only at hx; rw [he] at hx; simp at hx
        · intro _ hx; dsimp only at hx; rw [he] at hx; simp at hx
      split
      · rename_i hp
        refine ⟨m', rfl, .inr ?_⟩
        dsimp only; rw [List.length_append]; omega
      · rename_i hp
        have hnil : (Source.read (b.size - b.buf.length) b.src).1.1 = [] := by
          cases h : (Source.read (b.size - b.buf.length) b.src).1.1 with
          | nil => rfl
          | cons c cs => rw [h] at hp; simp at hp
        have hp := D.progress _ _ hk m.ok hr hnil
        have := ih _ m' he (by dsimp only; rw [hnil, List.append_nil]; exact hl) (by dsimp only; omega)
        dsimp only at this ⊢
        rw [hnil, List.append_nil] at this ⊢
        exact this

/-- What `ReadSlice` returns, in terms of the remaining bytes. -/
def SliceOk (inv : ρ → Prop) (pending : ρ → Bytes) (fin : Err) (eager : Prop) (d : UInt8) (size : Nat)
    (s : Stream) (line : Bytes) (b' : Bufio ρ) : Bufio.End → Prop
  | .found => ∃ x r, line = x ++ [d] ∧ d ∉ x ∧ x.length < size ∧ s.rest = x ++ d :: r ∧
      MatchAny inv pending fin eager b' { s with rest := r }
  | .full => ∃ r, d ∉ line ∧ line.length = size ∧ s.rest = line ++ r ∧ b'.buf = [] ∧ b'.err = none ∧
      MatchAny inv pending fin eager b' { s with rest := r }
  | .err e => e = fin ∧ line = s.rest ∧ d ∉ line ∧ line.length ≤ size ∧ (¬ eager → line.length < size) ∧
      MatchAny inv pending fin eager b' { s with rest := [] }

theorem readSlice_match (d : UInt8) (f : Nat) (b : Bufio ρ) (s : Stream)
    (m : MatchAny inv pending fin eager b s)
    (hf : (b.size - b.buf.length) + (if b.err = none then 1 else 0) < f) :
    ∃ line e b', Bufio.readSlice d f b = .ok ((line, e), b') ∧ b'.size = b.size ∧
      SliceOk inv pending fin eager d b.size s line b' e := by
  induction f generalizing b with
  | zero => omega
  | succ f ih =>
    unfold Bufio.readSlice
    cases hsp : splitAt d b.buf with
    | some xy =>
      obtain ⟨x, y⟩ := xy
      obtain ⟨hb, hx⟩ := splitAt_some _ _ _ _ hsp
      have hfits := m.fits
      have hlen : b.buf.length = x.length + (y.length + 1) := by rw [hb]; simp
      refine ⟨_, _, _, rfl, rfl, x, y ++ pending b.src, rfl, hx, by omega, ?_, ?_⟩
      · rw [m.rest, hb]; simp
      · refine ⟨m.ok, rfl, m.last, m.size, ?_, m.pos, m.err, ?_⟩
        · dsimp only; omega
        · intro h1 h2; dsimp only; omega
    | none =>
      have hnd := (splitAt_none _ _).1 hsp
      cases he : b.err with
      | some e =>
        obtain ⟨h1, h2⟩ := m.err _ he
        refine ⟨_, _, _, rfl, rfl, h1, ?_, hnd, m.fits, fun h => m.lazy h (by rw [he]; simp), ?_⟩
        · rw [m.rest, h2, List.append_nil]
        · refine ⟨m.ok, ?_, m.last, m.size, by simp, m.pos, by simp, by simp⟩
          simp [h2]
      | none =>
        dsimp only
        split
        · rename_i hfull
          have hfits := m.fits
          refine ⟨_, _, _, rfl, rfl, pending b.src, hnd, by omega, m.rest, rfl, rfl, ?_⟩
          exact ⟨m.ok, by simp, m.last, m.size, by simp, m.pos, by simp, by simp⟩
        · rename_i hfull
          obtain ⟨m', hsz, hgrow⟩ := fill_match D 100 b s m he (by omega) (D.idle _ m.ok)
          have hf' : ((Bufio.fill 100 b).size - (Bufio.fill 100 b).buf.length) +
              (if (Bufio.fill 100 b).err = none then 1 else 0) < f := by
            rw [he] at hf
            simp only [if_true] at hf
            rw [hsz]
            rcases hgrow with ⟨h1, h2⟩ | h
            · rw [if_neg h1]; omega
            · have := m'.fits; rw [hsz] at this
              split <;> omega
          obtain ⟨line, e, b', h1, h2, h3⟩ := ih _ m' hf'
          rw [hsz] at h3 h2
          exact ⟨line, e, b', h1, h2, h3⟩


theorem readLine_match (b : Bufio ρ) (s : Stream) (m : MatchAny inv pending fin eager b s) :
    RelRes (MatchAny inv pending fin eager) (Bufio.readLine b) (Stream.readLine s) ∨
    (eager ∧ s.rest.length = s.bufsz ∧ LF ∉ s.rest ∧ s.rest.getLast? = some CR ∧
      ∃ b', Bufio.readLine b = .ok (s.rest, b') ∧ MatchAny inv pending fin eager b' { s with rest := [] }) := by
  obtain ⟨line, e, b', h1, hsz, h2⟩ := readSlice_match D LF (b.size + 2) b s m (by split <;> omega)
  unfold Bufio.readLine
  rw [h1]
  simp only [Res.bind_ok]
  have hpos := m.pos
  have hsize := m.size
  cases e with
  | found =>
    obtain ⟨x, r, rfl, hx, hlt, hrest, m'⟩ := h2
    have hS : Stream.readLine s = .ok (dropCR x, { s with rest := r }) := by
      unfold Stream.readLine
      cases hs : s.rest with
      | nil => rw [hs] at hrest; simp at hrest
      | cons c cs =>
        dsimp only
        rw [← hs, hrest]
        have ht : (x ++ LF :: r).take s.bufsz = x ++ LF :: r.take (s.bufsz - x.length - 1) := by
          rw [List.take_append, List.take_of_length_le (by omega)]
          have : s.bufsz - x.length = (s.bufsz - x.length - 1) + 1 := by omega
          rw [this]; simp
        rw [ht, splitAt_notin _ _ _ hx]
        simp
    rw [hS]
    simp only [List.getLast?_concat, if_true, List.dropLast_concat]
    unfold dropCR
    by_cases hc : x.getLast? = some CR
    · have : x ≠ [] := by rintro rfl; simp at hc
      have := List.length_pos_iff.2 this
      rw [if_pos ⟨by simp; omega, hc⟩, if_pos hc]
      exact .inl ⟨rfl, m'⟩
    · rw [if_neg (fun h => hc h.2), if_neg hc]
      exact .inl ⟨rfl, m'⟩
  | full =>
    obtain ⟨r, hn, hlen, hrest, hb, he, m'⟩ := h2
    have hS : Stream.readLine s = if line.getLast? = some CR
        then .ok (line.dropLast, { s with rest := s.rest.drop (s.bufsz - 1) })
        else .ok (line, { s with rest := r }) := by
      unfold Stream.readLine
      cases hs : s.rest with
      | nil => rw [hs] at hrest; have := congrArg List.length hrest; simp at this; omega
      | cons c cs =>
        dsimp only
        rw [← hs, hrest, hsize]
        have ht : (line ++ r).take b.size = line := by rw [← hlen]; simp
        rw [ht, (splitAt_none _ _).2 hn]
        dsimp only
        rw [if_pos (by simp; omega)]
        congr 3
        rw [← hlen]; simp
    rw [hS]
    dsimp only
    by_cases hc : line.getLast? = some CR
    · rw [if_pos hc, if_pos hc]
      refine .inl ⟨rfl, m'.ok, ?_, m'.last, m'.size, ?_, m'.pos, ?_, ?_⟩
      · have hr := m'.rest
        rw [hb] at hr
        simp only [List.nil_append] at hr
        obtain ⟨l, rfl⟩ := List.getLast?_eq_some_iff.1 hc
        dsimp only
        rw [hrest, hsize, ← hlen, hb, ← hr]
        simp
      · dsimp only; rw [hb]; simp [hsz]; exact hpos
      · dsimp only; rw [he]; simp
      · dsimp only; rw [he]; simp
    · rw [if_neg hc, if_neg hc]
      exact .inl ⟨rfl, m'⟩
  | err e =>
    obtain ⟨rfl, rfl, hn, hle, hlt, m'⟩ := h2
    dsimp only
    cases hs : s.rest with
    | nil =>
      have : Stream.readLine s = .err s.fin := by unfold Stream.readLine; rw [hs]
      rw [this, m.last]
      exact .inl rfl
    | cons c cs =>
      rw [← hs]
      have hne : s.rest.length ≠ 0 := by rw [hs]; simp
      rw [if_neg hne]
      by_cases hcr : s.bufsz ≤ s.rest.length ∧ s.rest.getLast? = some CR
      · right
        refine ⟨?_, by omega, hn, hcr.2, b', rfl, m'⟩
        apply Classical.byContradiction
        intro h
        have := hlt h
        omega
      left
      have : Stream.readLine s = .ok (s.rest, { s with rest := [] }) := by
        unfold Stream.readLine
        rw [hs]
        dsimp only
        rw [← hs, List.take_of_length_le (by omega), (splitAt_none _ _).2 hn]
        dsimp only
        by_cases hc : s.bufsz ≤ s.rest.length
        · rw [if_pos hc, if_neg (fun h => hcr ⟨hc, h⟩), List.drop_of_length_le (by omega)]
        · rw [if_neg hc]
      rw [this]
      exact ⟨rfl, m'⟩

theorem readString_match (d : UInt8) (f : Nat) (acc : Bytes) (b : Bufio ρ) (s : Stream)
    (m : MatchAny inv pending fin eager b s) (hf : s.rest.length < f) :
    RelRes (MatchAny inv pending fin eager) (Bufio.readString d f acc b)
      (Stream.readString d s >>= fun p => .ok (acc ++ p.1, p.2)) := by
  induction f generalizing acc b s with
  | zero => omega
  | succ f ih =>
    obtain ⟨line, e, b', h1, hsz, h2⟩ := readSlice_match D d (b.size + 2) b s m (by split <;> omega)
    unfold Bufio.readString
    rw [h1]
    simp only [Res.bind_ok]
    have hpos := m.pos
    cases e with
    | found =>
      obtain ⟨x, r, rfl, hx, hlt, hrest, m'⟩ := h2
      have hS : Stream.readString d s = .ok (x ++ [d], { s with rest := r }) := by
        unfold Stream.readString; rw [hrest, splitAt_notin _ _ _ hx]
      rw [hS]
      exact ⟨rfl, m'⟩
    | full =>
      obtain ⟨r, hn, hlen, hrest, hb, he, m'⟩ := h2
      have := ih (acc ++ line) b' _ m' (by
        have := congrArg List.length hrest
        simp at this; dsimp only; omega)
      dsimp only
      have hS : (Stream.readString d s >>= fun p => Res.ok (acc ++ p.1, p.2)) =
          (Stream.readString d { s with rest := r } >>= fun p => Res.ok ((acc ++ line) ++ p.1, p.2)) := by
        unfold Stream.readString
        rw [hrest]
        dsimp only
        cases hsp : splitAt d r with
        | some xy =>
          obtain ⟨x, y⟩ := xy
          obtain ⟨rfl, hx⟩ := splitAt_some _ _ _ _ hsp
          rw [← List.append_assoc, splitAt_notin _ _ _ (by
            rw [List.mem_append]; exact fun h => h.elim hn hx)]
          simp
        | none =>
          rw [(splitAt_none _ _).2 (by
            rw [List.mem_append]; exact fun h => h.elim hn ((splitAt_none _ _).1 hsp))]
          rfl
      rw [hS]
      exact this
    | err e =>
      obtain ⟨rfl, rfl, hn, hle, hlt, m'⟩ := h2
      have hS : Stream.readString d s = .err s.fin := by
        unfold Stream.readString; rw [(splitAt_none _ _).2 hn]
      rw [hS, m.last]
      exact rfl

/-- What one `Read` returns, in terms of the remaining bytes. -/
theorem read_match (k : Nat) (hk : 0 < k) (b : Bufio ρ) (s : Stream) (m : MatchAny inv pending fin eager b s) :
    ∃ x r, (Bufio.read k b).1.1 = x ∧ s.rest = x ++ r ∧ x.length ≤ k ∧
      MatchAny inv pending fin eager (Bufio.read k b).2 { s with rest := r } ∧
      ((∃ e, (Bufio.read k b).1.2 = some e ∧ e = fin ∧ r = [] ∧ (x ≠ [] → eager)) ∨
       ((Bufio.read k b).1.2 = none ∧ Bufio.calls (Bufio.read k b).2 < Bufio.calls b)) := by
  have hpos := m.pos
  have hL := D.left _ m.ok
  unfold Bufio.read
  by_cases hb : b.buf = []
  · rw [if_pos hb]
    have hrest := m.rest
    rw [hb, List.nil_append] at hrest
    cases he : b.err with
    | some e =>
      obtain ⟨h1, h2⟩ := m.err _ he
      refine ⟨[], s.rest, rfl, rfl, by simp, ?_, .inl ⟨e, rfl, h1, by rw [hrest, h2], by simp⟩⟩
      exact ⟨m.ok, m.rest, m.last, m.size, m.fits, m.pos, by simp, by simp⟩
    | none =>
      dsimp only
      by_cases hbig : b.size ≤ k
      · rw [if_pos hbig]
        have hd := D.data _ _ hk m.ok
        have hr : s.rest = (Source.read k b.src).1.1 ++ pending (Source.read k b.src).2 := by rw [hrest, hd]
        refine ⟨_, _, rfl, hr, D.size _ _ hk m.ok, ?_, ?_⟩
        · exact ⟨D.stays _ _ hk m.ok, by simp [hb], m.last, m.size, m.fits, m.pos, by simp, by simp⟩
        · cases hx : (Source.read k b.src).1.2 with
          | some e =>
            left
            have h1 := D.err _ _ _ hk m.ok hx
            exact ⟨e, rfl, h1.1, h1.2, D.together _ _ _ hk m.ok hx⟩
          | none =>
            right
            refine ⟨rfl, ?_⟩
            unfold Bufio.calls Bufio.left
            dsimp only
            have hL' := D.left _ (D.stays _ _ hk m.ok)
            have hi := D.idle _ (D.stays _ _ hk m.ok)
            have hlen := congrArg List.length hd
            rw [List.length_append] at hlen
            cases hz : (Source.read k b.src).1.1 with
            | nil =>
              have := D.progress _ _ hk m.ok hx hz
              rw [hz] at hlen
              simp at hlen
              omega
            | cons c cs =>
              rw [hz] at hlen
              simp at hlen
              omega
      · rw [if_neg hbig]
        have hk' : 0 < b.size := by omega
        have hd := D.data _ _ hk' m.ok
        have hL' := D.left _ (D.stays _ _ hk' m.ok)
        have hi := D.idle _ (D.stays _ _ hk' m.ok)
        have hlen := congrArg List.length hd
        rw [List.length_append] at hlen
        have hsz := D.size _ _ hk' m.ok
        by_cases hz : (Source.read b.size b.src).1.1 = []
        · rw [if_pos hz]
          rw [hz, List.nil_append] at hd
          refine ⟨[], s.rest, rfl, rfl, by simp, ?_, ?_⟩
          · exact ⟨D.stays _ _ hk' m.ok, by simp [hb, hrest, hd], m.last, m.size, m.fits, m.pos, by simp,
              by simp⟩
          · cases hx : (Source.read b.size b.src).1.2 with
            | some e =>
              left
              have h1 := D.err _ _ _ hk' m.ok hx
              exact ⟨e, rfl, h1.1, by rw [hrest, hd, h1.2], by simp⟩
            | none =>
              right
              refine ⟨rfl, ?_⟩
              have := D.progress _ _ hk' m.ok hx hz
              rw [hz] at hlen
              unfold Bufio.calls Bufio.left
              dsimp only
              simp at hlen
              omega
        · rw [if_neg hz]
          have hne := List.length_pos_iff.2 hz
          have hr : s.rest = (Source.read b.size b.src).1.1.take k ++
              ((Source.read b.size b.src).1.1.drop k ++ pending (Source.read b.size b.src).2) := by
            rw [← List.append_assoc, List.take_append_drop, hrest, hd]
          refine ⟨_, _, rfl, hr, ?_, ?_, ?_⟩
          · rw [List.length_take]; omega
          · refine ⟨D.stays _ _ hk' m.ok, rfl, m.last, m.size, ?_, m.pos, ?_, ?_⟩
            · dsimp only; rw [List.length_drop]; omega
            · intro x hx; exact D.err _ _ _ hk' m.ok hx
            · intro hne hx
              dsimp only at hx
              cases hx' : (Source.read b.size b.src).1.2 with
              | none => exact absurd hx' hx
              | some e => exact absurd (D.together _ _ _ hk' m.ok hx' hz) hne
          · right
            refine ⟨rfl, ?_⟩
            unfold Bufio.calls Bufio.left
            dsimp only
            rw [List.length_drop]
            omega
  · rw [if_neg hb]
    have hne := List.length_pos_iff.2 hb
    have hfits := m.fits
    have hr : s.rest = b.buf.take k ++ (b.buf.drop k ++ pending b.src) := by
      rw [← List.append_assoc, List.take_append_drop, m.rest]
    refine ⟨_, _, rfl, hr, by rw [List.length_take]; omega, ?_, .inr ⟨rfl, ?_⟩⟩
    · refine ⟨m.ok, rfl, m.last, m.size, ?_, m.pos, m.err, ?_⟩
      · dsimp only; rw [List.length_drop]; omega
      · intro h1 h2; have := m.lazy h1 h2; dsimp only; rw [List.length_drop]; omega
    · unfold Bufio.calls Bufio.left
      dsimp only
      rw [List.length_drop]
      omega

theorem readAll_match (f : Nat) (acc : Bytes) (b : Bufio ρ) (s : Stream) (m : MatchAny inv pending fin eager b s)
    (hf : Bufio.calls b ≤ f) :
    RelRes (MatchAny inv pending fin eager) (Bufio.readAll f acc b)
      (Stream.readAll s >>= fun p => .ok (acc ++ p.1, p.2)) := by
  induction f generalizing acc b s with
  | zero => unfold Bufio.calls at hf; omega
  | succ f ih =>
    obtain ⟨x, r, h1, h2, h3, m', h4⟩ := read_match D (b.room acc.length + 1) (by omega) b s m
    unfold Bufio.readAll
    dsimp only
    rw [h1]
    rcases h4 with ⟨e, he, rfl, rfl, _⟩ | ⟨he, hc⟩
    · rw [he]
      dsimp only
      unfold Stream.readAll
      rw [m.last] at m'
      rw [m.last, h2, List.append_nil]
      by_cases hh : e = .eof
      · rw [if_pos hh, if_pos hh]
        exact ⟨rfl, m'⟩
      · rw [if_neg hh, if_neg hh]
        exact rfl
    · rw [he]
      dsimp only
      have := ih (acc ++ x) _ _ m' (by omega)
      unfold Stream.readAll at this ⊢
      dsimp only at this
      rw [h2]
      by_cases hh : s.fin = .eof
      · rw [if_pos hh] at this ⊢
        simpa using this
      · rw [if_neg hh] at this ⊢
        exact this

theorem readLimited_match (n f : Nat) (acc : Bytes) (b : Bufio ρ) (s : Stream)
    (m : MatchAny inv pending fin eager b s) (hf : Bufio.calls b ≤ f) :
    RelRes (MatchAny inv pending fin eager) (Bufio.readLimited n f acc b)
      (Stream.readLimited (n - acc.length) s >>= fun p => .ok (acc ++ p.1, p.2)) ∨
    (eager ∧ fin ≠ .eof ∧ n - acc.length = s.rest.length ∧ Bufio.readLimited n f acc b = .err fin) := by
  induction f generalizing acc b s with
  | zero => unfold Bufio.calls at hf; omega
  | succ f ih =>
    unfold Bufio.readLimited
    by_cases hn : n ≤ acc.length
    · rw [if_pos hn]
      unfold Stream.readLimited
      rw [if_pos (by omega), show n - acc.length = 0 by omega]
      simp only [List.take_zero, List.drop_zero, Res.bind_ok, List.append_nil]
      exact .inl ⟨rfl, m⟩
    rw [if_neg hn]
    obtain ⟨x, r, h1, h2, h3, m', h4⟩ :=
      read_match D (min (b.room acc.length + 1) (n - acc.length)) (by omega) b s m
    dsimp only
    rw [h1]
    have hx : x.length ≤ n - acc.length := by omega
    rcases h4 with ⟨e, he, rfl, rfl, hea⟩ | ⟨he, hc⟩
    · rw [he]
      dsimp only
      unfold Stream.readLimited
      rw [m.last] at m'
      rw [m.last, h2, List.append_nil]
      by_cases hh : e = .eof
      · rw [if_pos hh, if_pos hh]
        by_cases hlen : n - acc.length ≤ x.length
        · rw [if_pos hlen, List.take_of_length_le hx, List.drop_of_length_le hx]
          exact .inl ⟨rfl, m'⟩
        · rw [if_neg hlen]
          exact .inl ⟨rfl, m'⟩
      · rw [if_neg hh, if_neg hh]
        by_cases hlen : n - acc.length ≤ x.length
        · refine .inr ⟨hea ?_, hh, by omega, rfl⟩
          rintro rfl
          simp only [List.length_nil] at hlen
          omega
        · rw [if_neg hlen]
          exact .inl rfl
    · rw [he]
      dsimp only
      have := ih (acc ++ x) _ _ m' (by omega)
      have hS : (Stream.readLimited (n - acc.length) s >>= fun p => Res.ok (acc ++ p.1, p.2)) =
          (Stream.readLimited (n - (acc ++ x).length) { s with rest := r } >>=
            fun p => Res.ok ((acc ++ x) ++ p.1, p.2)) := by
        unfold Stream.readLimited
        rw [h2]
        dsimp only
        rw [List.length_append, List.length_append]
        by_cases hl : n - acc.length ≤ x.length + r.length
        · rw [if_pos hl, if_pos (by omega)]
          simp only [Res.bind_ok, List.append_assoc, Res.ok.injEq, Prod.mk.injEq, List.append_cancel_left_eq]
          rw [List.take_append, List.take_of_length_le hx, List.drop_append, List.drop_of_length_le hx]
          simp [Nat.sub_sub]
        · rw [if_neg hl, if_neg (show ¬ n - (acc.length + x.length) ≤ r.length by omega)]
          by_cases hh : s.fin = .eof
          · rw [if_pos hh, if_pos hh]; simp
          · rw [if_neg hh, if_neg hh]; rfl
      rw [hS]
      refine this.imp_right fun ⟨h5, h6, h7, h8⟩ => ⟨h5, h6, ?_, h8⟩
      rw [h2, List.length_append]
      rw [List.length_append] at h7
      dsimp only at h7
      omega

theorem readFull_match (n f : Nat) (acc : Bytes) (b : Bufio ρ) (s : Stream)
    (m : MatchAny inv pending fin eager b s) (hf : Bufio.calls b ≤ f) (ha : acc.length ≤ n) :
    RelRes (MatchAny inv pending fin eager) (Bufio.readFull n f acc b)
      (Stream.readFull n { s with rest := acc ++ s.rest }) := by
  induction f generalizing acc b s with
  | zero => unfold Bufio.calls at hf; omega
  | succ f ih =>
    unfold Bufio.readFull
    by_cases hn : n ≤ acc.length
    · rw [if_pos hn]
      unfold Stream.readFull
      have : acc.length = n := by omega
      rw [if_pos (by simp; omega)]
      subst this
      simp only [List.take_left, List.drop_left]
      exact ⟨rfl, m⟩
    rw [if_neg hn]
    obtain ⟨x, r, h1, h2, h3, m', h4⟩ := read_match D (n - acc.length) (by omega) b s m
    dsimp only
    rw [h1]
    rcases h4 with ⟨e, he, rfl, rfl, hea⟩ | ⟨he, hc⟩
    · rw [he]
      dsimp only
      unfold Stream.readFull
      rw [h2, List.append_nil]
      dsimp only
      by_cases hl : n ≤ (acc ++ x).length
      · rw [if_pos hl, if_pos hl]
        have : (acc ++ x).length = n := by rw [List.length_append] at hl ⊢; omega
        rw [List.take_of_length_le (by omega), List.drop_of_length_le (by omega)]
        exact ⟨rfl, m'⟩
      · rw [if_neg hl, if_neg hl, m.last]
        by_cases hh : e = .eof
        · rw [if_pos hh]
          cases hax : acc ++ x with
          | nil => simp [RelRes, hh]
          | cons c cs => simp [RelRes, hh]
        · rw [if_neg hh, if_neg (fun h => hh h.2)]
          exact rfl
    · rw [he]
      dsimp only
      have := ih (acc ++ x) _ _ m' (by omega) (by rw [List.length_append]; omega)
      rw [h2, ← List.append_assoc]
      exact this

theorem bufio_string (d : UInt8) (b : Bufio ρ) (s : Stream) (m : MatchAny inv pending fin eager b s) :
    RelRes (MatchAny inv pending fin eager) (Reader.readString d b) (Reader.readString d s) := by
  have hleft : b.left = s.rest.length := by
    unfold Bufio.left; rw [m.rest, D.left _ m.ok]; simp
  have := readString_match D d (b.left + 2) [] b s m (by omega)
  simp only [List.nil_append] at this
  have hS : (Stream.readString d s >>= fun p => Res.ok (p.1, p.2)) = Stream.readString d s := by
    cases Stream.readString d s <;> rfl
  rw [hS] at this
  exact this

theorem bufio_all (b : Bufio ρ) (s : Stream) (m : MatchAny inv pending fin eager b s) :
    RelRes (MatchAny inv pending fin eager) (Reader.readAll b) (Reader.readAll s) := by
  have := readAll_match D b.calls [] b s m (Nat.le_refl _)
  simp only [List.nil_append] at this
  have hS : (Stream.readAll s >>= fun p => Res.ok (p.1, p.2)) = Stream.readAll s := by
    cases Stream.readAll s <;> rfl
  rw [hS] at this
  exact this

theorem bufio_full (n : Nat) (b : Bufio ρ) (s : Stream) (m : MatchAny inv pending fin eager b s) :
    RelRes (MatchAny inv pending fin eager) (Reader.readFull n b) (Reader.readFull n s) :=
  readFull_match D n b.calls [] b s m (Nat.le_refl _) (by simp)

theorem bufio_limited (n : Nat) (b : Bufio ρ) (s : Stream) (m : MatchAny inv pending fin eager b s) :
    RelRes (MatchAny inv pending fin eager) (Reader.readLimited n b) (Reader.readLimited n s) ∨
    (eager ∧ fin ≠ .eof ∧ n = s.rest.length ∧ Reader.readLimited n b = .err fin) := by
  have := readLimited_match D n b.calls [] b s m (Nat.le_refl _)
  simp only [List.nil_append, List.length_nil, Nat.sub_zero] at this
  have hS : (Stream.readLimited n s >>= fun p => Res.ok (p.1, p.2)) = Stream.readLimited n s := by
    cases Stream.readLimited n s <;> rfl
  rw [hS] at this
  exact this

theorem bufio_left (b : Bufio ρ) (s : Stream) (m : MatchAny inv pending fin eager b s) :
    Reader.left b = Reader.left s := by
  show b.left = s.rest.length
  unfold Bufio.left; rw [m.rest, D.left _ m.ok]; simp

omit D in
/-- The operations of the abstract reader leave the end of the stream. -/
theorem RelRes.hasty {b : Res (Bytes × Bufio ρ)} {r : Res (Bytes × Stream)} {s : Stream}
    (he : eager → fin = .eof ∧ s.rest.getLast? ≠ some CR)
    (hr : ∀ x t, r = .ok (x, t) → t.rest <:+ s.rest) (h : RelRes (MatchAny inv pending fin eager) b r) :
    RelRes (Match inv pending fin eager) b r := by
  rcases h.cases with ⟨x, u, t, rfl, rfl, h'⟩ | ⟨e, rfl, rfl⟩ | ⟨rfl, rfl⟩
  · refine ⟨rfl, h', fun hg => ⟨(he hg).1, ?_⟩⟩
    obtain ⟨y, hy⟩ := hr x t rfl
    have := (he hg).2
    rw [← hy] at this
    exact getLast?_suffix this
  · exact rfl
  · exact True.intro

omit D in
theorem string_suffix (d : UInt8) (s : Stream) (x : Bytes) (t : Stream) (h : Stream.readString d s = .ok (x, t)) :
    t.rest <:+ s.rest := by
  unfold Stream.readString at h
  split at h
  · rename_i a c hs
    cases h
    rw [(splitAt_some _ _ _ _ hs).1]
    exact ⟨a ++ [d], by simp⟩
  · cases h

omit D in
theorem line_suffix (s : Stream) (x : Bytes) (t : Stream) (h : Stream.readLine s = .ok (x, t)) :
    t.rest <:+ s.rest := by
  unfold Stream.readLine at h
  split at h
  · cases h
  · split at h
    · cases h; exact List.drop_suffix _ _
    · split at h
      · dsimp only at h
        split at h <;> cases h <;> exact List.drop_suffix _ _
      · cases h; exact List.nil_suffix

omit D in
theorem all_suffix (s : Stream) (x : Bytes) (t : Stream) (h : Stream.readAll s = .ok (x, t)) :
    t.rest <:+ s.rest := by
  unfold Stream.readAll at h
  split at h <;> cases h
  exact List.nil_suffix

omit D in
theorem full_suffix (n : Nat) (s : Stream) (x : Bytes) (t : Stream) (h : Stream.readFull n s = .ok (x, t)) :
    t.rest <:+ s.rest := by
  unfold Stream.readFull at h
  split at h
  · cases h; exact List.drop_suffix _ _
  · split at h
    · split at h <;> cases h
    · cases h

omit D in
theorem limited_suffix (n : Nat) (s : Stream) (x : Bytes) (t : Stream) (h : Stream.readLimited n s = .ok (x, t)) :
    t.rest <:+ s.rest := by
  unfold Stream.readLimited at h
  split at h
  · cases h; exact List.drop_suffix _ _
  · split at h <;> cases h
    exact List.nil_suffix

/-- `bufio.Reader` over a reader that delivers a stream is the abstract reader of
that stream. -/
theorem bufio_sim : ReaderSim (σ := Bufio ρ) (τ := Stream) (Match inv pending fin eager) where
  readString d b s m := (bufio_string D d b s m.any).hasty m.hasty (string_suffix d s)
  readLine b s m := by
    rcases readLine_match D b s m.any with h | ⟨h1, h2, h3, h4, _⟩
    · exact h.hasty m.hasty (line_suffix s)
    · exact absurd h4 (m.hasty h1).2
  readAll b s m := (bufio_all D b s m.any).hasty m.hasty (all_suffix s)
  readFull n b s m := (bufio_full D n b s m.any).hasty m.hasty (full_suffix n s)
  readLimited n b s m := by
    rcases bufio_limited D n b s m.any with h | ⟨h1, h2, _⟩
    · exact h.hasty m.hasty (limited_suffix n s)
    · exact absurd (m.hasty h1).1 h2
  left b s m := bufio_left D b s m.any

end

end Verif
