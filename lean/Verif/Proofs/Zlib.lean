import Verif.Model.Zlib
import Verif.Spec.Zlib
import Verif.Proofs.Bufio

/-!
# The zlib reader: lemmas
-/

namespace Verif

open Spec

/-! ## The checksum -/

theorem adlerSums_eq (b : Bytes) (X Y : Nat) :
    adlerSums b (X % 65521, Y % 65521) =
      ((X + (b.map UInt8.toNat).sum) % 65521,
       (Y + ((List.range b.length).map fun i => X + ((b.take (i + 1)).map UInt8.toNat).sum).sum) % 65521) := by
  induction b generalizing X Y with
  | nil => simp [adlerSums]
  | cons c b ih =>
    unfold adlerSums
    have h1 : (X % 65521 + c.toNat) % 65521 = (X + c.toNat) % 65521 := by omega
    have h2 : (Y % 65521 + (X + c.toNat) % 65521) % 65521 = (Y + (X + c.toNat)) % 65521 := by omega
    rw [h1, h2, ih]
    simp only [List.map_cons, List.sum_cons, List.length_cons, List.range_succ_eq_map, List.map_map,
      List.take_succ_cons, Prod.mk.injEq]
    refine ⟨by congr 1; omega, ?_⟩
    congr 1
    simp only [List.take_zero, List.map_nil, List.sum_nil, Nat.add_zero, Function.comp_def, Nat.add_assoc]

theorem adler_iff (b t : Bytes) : t = adler32 b ↔ AdlerIs b t := by
  have h := adlerSums_eq b 1 0
  simp only [Nat.reduceMod, Nat.zero_add, Nat.zero_mod] at h
  have hx : (adlerSums b (1, 0)).1 < 65521 := by rw [h]; exact Nat.mod_lt _ (by omega)
  have hy : (adlerSums b (1, 0)).2 < 65521 := by rw [h]; exact Nat.mod_lt _ (by omega)
  have hm : ∀ n : Nat, UInt8.ofNat (n % 256) = UInt8.ofNat n := fun n => by
    apply UInt8.toNat_inj.1; simp
  constructor
  · rintro rfl
    refine ⟨_, _, hx, hy, ?_, ?_, ?_⟩
    · rw [h]; simp
    · rw [h]; simp
    · simp only [hm]; rfl
  · rintro ⟨x, y, hx', hy', h1, h2, rfl⟩
    have e1 : x = (adlerSums b (1, 0)).1 := by
      rw [Nat.mod_eq_of_lt hx'] at h1; rw [h1, h]
    have e2 : y = (adlerSums b (1, 0)).2 := by
      rw [Nat.mod_eq_of_lt hy'] at h2; rw [h2, h]
    rw [hm, hm, e1, e2]; rfl

/-! ## What the zlib reader delivers -/

/-- The error that ends the decompressed data. -/
def zlibFin (fin : Err) (out : Bytes) (after : Stream) : Err := if fin = .eof then zlibEnd out after else fin

theorem adler32_length (b : Bytes) : (adler32 b).length = 4 := rfl

theorem zlibFin_eof (fin : Err) (out : Bytes) (after : Stream) :
    zlibFin fin out after = .eof ↔ Intact fin out after.rest := by
  unfold zlibFin Intact
  by_cases hf : fin = .eof
  · rw [if_pos hf]
    simp only [hf, true_and]
    unfold zlibEnd Stream.readFull
    by_cases hl : 4 ≤ after.rest.length
    · rw [if_pos hl]
      dsimp only
      by_cases ht : after.rest.take 4 = adler32 out
      · rw [if_pos ht]
        simp only [true_iff]
        exact ⟨_, after.rest.drop 4, (List.take_append_drop 4 _).symm, (adler_iff _ _).1 ht⟩
      · rw [if_neg ht]
        constructor
        · intro h; cases h
        · rintro ⟨t, r, h1, h2⟩
          have h3 := (adler_iff _ _).2 h2
          have h4 : t.length = 4 := by rw [h3]; rfl
          refine absurd ?_ ht
          rw [h1, ← h4, List.take_left, h3]
    · rw [if_neg hl]
      have hno : ¬ ∃ t r, after.rest = t ++ r ∧ AdlerIs out t := by
        rintro ⟨t, r, h1, h2⟩
        have h4 : t.length = 4 := by rw [(adler_iff _ _).2 h2]; rfl
        rw [h1, List.length_append] at hl
        omega
      by_cases he : after.fin = .eof
      · rw [if_pos he]
        by_cases hn : after.rest = []
        · rw [if_pos hn]; exact ⟨(fun h => by cases h), fun h => absurd h hno⟩
        · rw [if_neg hn]; exact ⟨(fun h => by cases h), fun h => absurd h hno⟩
      · rw [if_neg he]
        refine ⟨fun h => ?_, fun h => absurd h hno⟩
        split at h
        · rename_i h'; cases h'
        · rename_i h'; exact absurd (Res.err.inj h') he
        · rename_i e h2 h3
          exact absurd h h2
        · cases h
  · rw [if_neg hf]
    exact ⟨fun h => absurd h hf, fun h => absurd h.1 hf⟩

section

variable {ρ : Type} [Source ρ] {inv : ρ → Prop} {pending : ρ → Bytes} {fin : Err} {eager : Prop}

/-- The states of the zlib reader of the decompressed data `out`. -/
structure Unpacks (inv : ρ → Prop) (pending : ρ → Bytes) (fin : Err) (out : Bytes) (after : Stream) (z : Zlib ρ) :
    Prop where
  flate : inv z.flate
  all : z.seen ++ pending z.flate = out
  rest : z.after = after
  err : ∀ e, z.err = some e → e = zlibFin fin out after ∧ pending z.flate = []

theorem zlib_delivers (D : Delivers ρ inv pending fin eager) (out : Bytes) (after : Stream) :
    Delivers (Zlib ρ) (Unpacks inv pending fin out after) (fun z => pending z.flate) (zlibFin fin out after) eager := by
  have key : ∀ k (z : Zlib ρ), 0 < k → Unpacks inv pending fin out after z → z.err = none →
      (Source.read k z).1.1 = (Source.read k z.flate).1.1 ∧
      (Source.read k z).2.flate = (Source.read k z.flate).2 ∧
      Unpacks inv pending fin out after (Source.read k z).2 ∧
      (((Source.read k z.flate).1.2 = none ∧ (Source.read k z).1.2 = none ∧ (Source.read k z).2.err = none) ∨
       (∃ x, (Source.read k z.flate).1.2 = some x ∧ (Source.read k z).1.2 = some (zlibFin fin out after) ∧
         pending (Source.read k z.flate).2 = [])) := by
    intro k z hk u he
    have hd := D.data _ _ hk u.flate
    have hu := u.all
    rw [hd, ← List.append_assoc] at hu
    show (Zlib.read k z).1.1 = _ ∧ (Zlib.read k z).2.flate = _ ∧ Unpacks _ _ _ _ _ (Zlib.read k z).2 ∧
      ((_ ∧ (Zlib.read k z).1.2 = _ ∧ (Zlib.read k z).2.err = none) ∨ ∃ x, _ ∧ (Zlib.read k z).1.2 = _ ∧ _)
    unfold Zlib.read
    rw [he]
    dsimp only
    cases hr : (Source.read k z.flate).1.2 with
    | none =>
      refine ⟨rfl, rfl, ⟨D.stays _ _ hk u.flate, hu, u.rest, ?_⟩, .inl ⟨rfl, rfl, rfl⟩⟩
      intro e h; cases h
    | some x =>
      obtain ⟨h1, h2⟩ := D.err _ _ _ hk u.flate hr
      rw [h2, List.append_nil] at hu
      have hz : (if x = .eof then zlibEnd (z.seen ++ (Source.read k z.flate).1.1) z.after else x) =
          zlibFin fin out after := by
        rw [h1, hu, u.rest]; rfl
      dsimp only
      rw [hz]
      refine ⟨rfl, rfl, ⟨D.stays _ _ hk u.flate, ?_, u.rest, ?_⟩, .inr ⟨x, rfl, rfl, h2⟩⟩
      · dsimp only; rw [h2, List.append_nil]; exact hu
      · intro e h
        cases h
        exact ⟨rfl, h2⟩
  have done : ∀ k (z : Zlib ρ) e, z.err = some e → Source.read k z = (([], some e), z) := by
    intro k z e he
    show Zlib.read k z = _
    unfold Zlib.read
    rw [he]
  constructor
  · intro k z hk u
    cases he : z.err with
    | some e => rw [done k z e he]; exact u
    | none => exact (key k z hk u he).2.2.1
  · intro k z hk u
    cases he : z.err with
    | some e => rw [done k z e he]; simp
    | none => rw [(key k z hk u he).1]; exact D.size _ _ hk u.flate
  · intro k z hk u
    cases he : z.err with
    | some e => rw [done k z e he]; rfl
    | none =>
      obtain ⟨h1, h2, _⟩ := key k z hk u he
      rw [h1, h2]; exact D.data _ _ hk u.flate
  · intro k z x hk u hx
    cases he : z.err with
    | some e =>
      rw [done k z e he] at hx ⊢
      cases hx
      exact u.err _ he
    | none =>
      obtain ⟨h1, h2, _, h4⟩ := key k z hk u he
      rcases h4 with ⟨_, h, _⟩ | ⟨y, _, h, h5⟩
      · rw [h] at hx; cases hx
      · rw [h] at hx; cases hx
        rw [h2]
        exact ⟨rfl, h5⟩
  · intro k z x hk u hx hne
    cases he : z.err with
    | some e => rw [done k z e he] at hne; exact absurd rfl hne
    | none =>
      obtain ⟨h1, h2, _, h4⟩ := key k z hk u he
      rcases h4 with ⟨_, h, _⟩ | ⟨y, hy, h, h5⟩
      · rw [h] at hx; cases hx
      · rw [h1] at hne
        exact D.together _ _ _ hk u.flate hy hne
  · intro k z hk u hx hnil
    cases he : z.err with
    | some e => rw [done k z e he] at hx; cases hx
    | none =>
      obtain ⟨h1, h2, _, h4⟩ := key k z hk u he
      rcases h4 with ⟨h5, _, h6⟩ | ⟨y, hy, h, h5⟩
      · show (if (Source.read k z).2.err = none then Source.idle (Source.read k z).2.flate else 0) <
          (if z.err = none then Source.idle z.flate else 0)
        rw [if_pos h6, if_pos he, h2]
        exact D.progress _ _ hk u.flate h5 (h1 ▸ hnil)
      · rw [h] at hx; cases hx
  · intro z u
    show (if z.err = none then Source.idle z.flate else 0) < 100
    have := D.idle _ u.flate
    split <;> omega
  · intro z u
    show (if z.err = none then Source.left z.flate else 0) = _
    cases he : z.err with
    | none => rw [if_pos rfl]; exact D.left _ u.flate
    | some e => rw [if_neg (by simp), (u.err _ he).2]; rfl

end

/-! ## Blobs shorter than the buffer -/

section

variable {ρ : Type} [Source ρ] {inv : ρ → Prop} {pending : ρ → Bytes} {fin : Err} {eager : Prop}

/-- A read that asks for less than the buffer holds gives an error only when there is
nothing else to give. -/
theorem read_alone (k : Nat) (b : Bufio ρ) (hk : k < b.size) (e : Err) (h : (Bufio.read k b).1.2 = some e) :
    (Bufio.read k b).1.1 = [] := by
  unfold Bufio.read at h ⊢
  by_cases hb : b.buf = []
  · rw [if_pos hb] at h ⊢
    cases he : b.err with
    | some e => rfl
    | none =>
      rw [he] at h
      dsimp only at h ⊢
      rw [if_neg (by omega)] at h ⊢
      by_cases hz : (Source.read b.size b.src).1.1 = []
      · rw [if_pos hz]
      · rw [if_neg hz] at h; cases h
  · rw [if_neg hb] at h; cases h

theorem read_size (k : Nat) (b : Bufio ρ) : (Bufio.read k b).2.size = b.size := by
  unfold Bufio.read
  split
  · split
    · rfl
    · split
      · rfl
      · dsimp only; split <;> rfl
  · rfl

/-- A copy of fewer bytes than the buffer holds does not see the error behind them. -/
theorem readLimited_short (D : Delivers ρ inv pending fin eager) (n f : Nat) (acc : Bytes) (b : Bufio ρ) (s : Stream)
    (m : MatchAny inv pending fin eager b s) (hf : Bufio.calls b ≤ f) (hn : n - acc.length < b.size)
    (hr : n - acc.length ≤ s.rest.length) :
    ∃ b', Bufio.readLimited n f acc b = .ok (acc ++ s.rest.take (n - acc.length), b') := by
  induction f generalizing acc b s with
  | zero => unfold Bufio.calls at hf; omega
  | succ f ih =>
    unfold Bufio.readLimited
    by_cases hd : n ≤ acc.length
    · rw [if_pos hd, show n - acc.length = 0 by omega]
      exact ⟨b, by simp⟩
    rw [if_neg hd]
    obtain ⟨x, r, h1, h2, h3, m', h4⟩ :=
      read_match D (min (b.room acc.length + 1) (n - acc.length)) (by omega) b s m
    have hx : x.length ≤ n - acc.length := by omega
    dsimp only
    rcases h4 with ⟨e, he, rfl, rfl, hea⟩ | ⟨he, hc⟩
    · have := read_alone _ b (by omega) _ he
      rw [h1] at this
      rw [h2, this] at hr
      simp only [List.append_nil, List.length_nil] at hr
      omega
    · rw [he, h1]
      dsimp only
      have hr' : s.rest.length = x.length + r.length := by rw [h2]; simp
      obtain ⟨b', hb'⟩ := ih (acc ++ x) _ _ m' (by omega)
        (by rw [read_size, List.length_append]; omega) (by rw [List.length_append]; dsimp only; omega)
      refine ⟨b', ?_⟩
      rw [hb', h2, List.take_append, List.take_of_length_le hx, List.length_append]
      simp [Nat.sub_sub]

end

end Verif
