import Verif.Proofs.Stream
import Verif.Proofs.Hex
import Verif.Proofs.Person
import Verif.Proofs.Num

/-!
# Loops without fuel

Each loop of the decoder, run with more fuel than there are bytes left, does not
depend on the amount of fuel. The `…Run` functions fix the amount; the `…Run_eq`
lemmas are the loops' equations without fuel.
-/

namespace Verif

/-- `s'` is `s` after consuming some bytes. -/
structure Stream.Sub (s' s : Stream) : Prop where
  fin : s'.fin = s.fin
  bufsz : s'.bufsz = s.bufsz
  suf : s'.rest <:+ s.rest

/-- `s'` is `s` after consuming at least one byte. -/
structure Stream.Lt (s' s : Stream) : Prop extends Stream.Sub s' s where
  lt : s'.rest.length < s.rest.length

theorem Stream.Sub.refl (s : Stream) : Stream.Sub s s := ⟨rfl, rfl, List.suffix_refl _⟩

theorem Stream.Sub.trans {a b c : Stream} (h : Stream.Sub a b) (h' : Stream.Sub b c) : Stream.Sub a c :=
  ⟨h.fin.trans h'.fin, h.bufsz.trans h'.bufsz, h.suf.trans h'.suf⟩

theorem Stream.Sub.le {a b : Stream} (h : Stream.Sub a b) : a.rest.length ≤ b.rest.length :=
  h.suf.length_le

theorem Stream.Lt.trans_sub {a b c : Stream} (h : Stream.Lt a b) (h' : Stream.Sub b c) : Stream.Lt a c :=
  ⟨h.toSub.trans h', Nat.lt_of_lt_of_le h.lt h'.le⟩

theorem Stream.Sub.trans_lt {a b c : Stream} (h : Stream.Sub a b) (h' : Stream.Lt b c) : Stream.Lt a c :=
  ⟨h.trans h'.toSub, Nat.lt_of_le_of_lt h.le h'.lt⟩

theorem Stream.readLine_lt (s s' : Stream) (l : Bytes) (hN : 2 ≤ s.bufsz)
    (h : Stream.readLine s = .ok (l, s')) : Stream.Lt s' s := by
  have h0 := Stream.readLine_shrinks s s' l hN h
  refine ⟨⟨h0.2.1, h0.2.2, ?_⟩, h0.1⟩
  unfold Stream.readLine at h
  split at h
  · simp at h
  · split at h
    · simp only [Res.ok.injEq, Prod.mk.injEq] at h
      obtain ⟨rfl, rfl⟩ := h
      exact List.drop_suffix _ _
    · split at h
      · simp only at h
        split at h
        · simp only [Res.ok.injEq, Prod.mk.injEq] at h
          obtain ⟨rfl, rfl⟩ := h
          exact List.drop_suffix _ _
        · simp only [Res.ok.injEq, Prod.mk.injEq] at h
          obtain ⟨rfl, rfl⟩ := h
          exact List.drop_suffix _ _
      · simp only [Res.ok.injEq, Prod.mk.injEq] at h
        obtain ⟨rfl, rfl⟩ := h
        exact List.nil_suffix

theorem Stream.readString_lt (d : UInt8) (s s' : Stream) (x : Bytes)
    (h : Stream.readString d s = .ok (x, s')) : Stream.Lt s' s := by
  obtain ⟨a, _, _, hr, hf, hb⟩ := Stream.readString_ok d s s' x h
  refine ⟨⟨hf, hb, ?_⟩, ?_⟩
  · rw [hr]; exact ⟨a ++ [d], by simp⟩
  · rw [hr]; simp; omega

theorem Stream.readAll_ok (s s' : Stream) (x : Bytes) (h : Stream.readAll s = .ok (x, s')) :
    s.fin = .eof ∧ x = s.rest ∧ s' = { s with rest := [] } := by
  unfold Stream.readAll at h
  split at h
  · rename_i hf
    simp only [Res.ok.injEq, Prod.mk.injEq] at h
    exact ⟨hf, h.1.symm, h.2.symm⟩
  · simp at h

theorem Stream.readAll_sub (s s' : Stream) (x : Bytes) (h : Stream.readAll s = .ok (x, s')) :
    Stream.Sub s' s := by
  obtain ⟨_, _, rfl⟩ := Stream.readAll_ok s s' x h
  exact ⟨rfl, rfl, List.nil_suffix⟩

theorem Stream.readFull_sub (n : Nat) (s s' : Stream) (x : Bytes) (h : Stream.readFull n s = .ok (x, s')) :
    Stream.Sub s' s := by
  unfold Stream.readFull at h
  split at h
  · simp only [Res.ok.injEq, Prod.mk.injEq] at h
    obtain ⟨_, rfl⟩ := h
    exact ⟨rfl, rfl, List.drop_suffix _ _⟩
  · split at h
    · split at h <;> simp at h
    · simp at h

@[simp] theorem reader_readLine (s : Stream) : Reader.readLine s = Stream.readLine s := rfl
@[simp] theorem reader_readAll (s : Stream) : Reader.readAll s = Stream.readAll s := rfl
@[simp] theorem reader_readString (d : UInt8) (s : Stream) :
    Reader.readString d s = Stream.readString d s := rfl
@[simp] theorem reader_readFull (n : Nat) (s : Stream) :
    Reader.readFull n s = Stream.readFull n s := rfl
@[simp] theorem reader_readLimited (n : Nat) (s : Stream) :
    Reader.readLimited n s = Stream.readLimited n s := rfl
@[simp] theorem reader_left (s : Stream) : Reader.left s = s.rest.length := rfl

/-! ## message of a merge tag -/

theorem mergeMsgLoop_fuel (f g : Nat) (m : Bytes) (s : Stream) (hN : 2 ≤ s.bufsz)
    (hf : s.rest.length < f) (hg : s.rest.length < g) : mergeMsgLoop f m s = mergeMsgLoop g m s := by
  induction f generalizing g m s with
  | zero => omega
  | succ f ih =>
    cases g with
    | zero => omega
    | succ g =>
      simp only [mergeMsgLoop, reader_readLine]
      cases h : Stream.readLine s with
      | err e => cases e <;> rfl
      | panic => rfl
      | ok p =>
        obtain ⟨l, s'⟩ := p
        have hl := Stream.readLine_lt s s' l hN h
        have := hl.lt
        simp only
        split
        · rfl
        · exact ih g _ s' (by rw [hl.bufsz]; exact hN) (by omega) (by omega)

/-- The message loop with enough fuel. -/
def mergeMsgRun (m : Bytes) (s : Stream) : Res ((Bytes × Bytes) × Stream) :=
  mergeMsgLoop (s.rest.length + 1) m s

theorem mergeMsgRun_eq (m : Bytes) (s : Stream) (hN : 2 ≤ s.bufsz) :
    mergeMsgRun m s = match Stream.readLine s with
      | .err e => .err e
      | .panic => .panic
      | .ok (line, s) =>
        if ¬ hasPrefix line b!" " then .ok ((m, line), s)
        else mergeMsgRun (m ++ (line ++ [LF])) s := by
  show mergeMsgLoop (s.rest.length + 1) m s = _
  rw [mergeMsgLoop, reader_readLine]
  cases h : Stream.readLine s with
  | err e => cases e <;> rfl
  | panic => rfl
  | ok p =>
    obtain ⟨l, s'⟩ := p
    have hl := Stream.readLine_lt s s' l hN h
    have := hl.lt
    simp only
    split
    · rfl
    · exact mergeMsgLoop_fuel _ _ _ _ (by rw [hl.bufsz]; exact hN) (by omega) (by omega)

/-- Induction principle for loops over a stream. -/
theorem stream_induct {P : Stream → Prop}
    (h : ∀ s, (∀ s', Stream.Lt s' s → P s') → P s) (s : Stream) : P s := by
  have : ∀ n, ∀ s : Stream, s.rest.length < n → P s := by
    intro n
    induction n with
    | zero => intro s hs; omega
    | succ n ih =>
      intro s hs
      exact h s (fun s' hl => ih s' (by have := hl.lt; omega))
  exact this _ s (Nat.lt_succ_self _)

theorem mergeMsgRun_lt (m : Bytes) (s : Stream) (hN : 2 ≤ s.bufsz) (r : Bytes × Bytes) (s' : Stream)
    (h : mergeMsgRun m s = .ok (r, s')) : Stream.Lt s' s := by
  induction s using stream_induct generalizing m with
  | h s ih =>
    rw [mergeMsgRun_eq m s hN] at h
    cases hr : Stream.readLine s with
    | err e => rw [hr] at h; simp at h
    | panic => rw [hr] at h; simp at h
    | ok p =>
      obtain ⟨l, s1⟩ := p
      have hl := Stream.readLine_lt s s1 l hN hr
      rw [hr] at h
      simp only at h
      split at h
      · simp only [Res.ok.injEq, Prod.mk.injEq] at h
        rw [← h.2]; exact hl
      · exact (ih s1 hl _ (by rw [hl.bufsz]; exact hN) h).trans_sub hl.toSub

/-! ## merge tag -/

theorem mergeTagLoop_fuel (f g : Nat) (o : Tag) (s : Stream) (hN : 2 ≤ s.bufsz)
    (hf : s.rest.length < f) (hg : s.rest.length < g) : mergeTagLoop f o s = mergeTagLoop g o s := by
  induction f generalizing g o s with
  | zero => omega
  | succ f ih =>
    cases g with
    | zero => omega
    | succ g =>
      simp only [mergeTagLoop, reader_readLine]
      cases h : Stream.readLine s with
      | err e => cases e <;> rfl
      | panic => rfl
      | ok p =>
        obtain ⟨l, s'⟩ := p
        have hl := Stream.readLine_lt s s' l hN h
        have := hl.lt
        have ih' := fun o => ih g o s' (by rw [hl.bufsz]; exact hN) (by omega) (by omega)
        simp only [ih']

/-- The loop of `readMergeTag` with enough fuel. -/
def mergeTagRun (o : Tag) (s : Stream) : Res ((Tag × Option Bytes) × Stream) :=
  mergeTagLoop (s.rest.length + 1) o s

theorem mergeTagRun_eq (out : Tag) (s : Stream) (hN : 2 ≤ s.bufsz) :
    mergeTagRun out s = match Stream.readLine s with
    | .err .eof => .ok ((out, none), s)
    | .err e => .err e
    | .panic => .panic
    | .ok (line, s) =>
      if hasPrefix line b!" type " then do
        let x ← sliceFrom line 6
        mergeTagRun { out with typ := x } s
      else if hasPrefix line b!" tag " then do
        let x ← sliceFrom line 5
        mergeTagRun { out with tag := x } s
      else if hasPrefix line b!" tagger " then do
        let l ← sliceFrom line 1
        let p ← parsePersonInfo l
        mergeTagRun { out with tagger := p } s
      else if line = b!" " then do
        let ((msg, rest), s) ← mergeMsgRun [] s
        .ok (({ out with message := msg }, some rest), s)
      else mergeTagRun out s := by
  show mergeTagLoop (s.rest.length + 1) out s = _
  rw [mergeTagLoop, reader_readLine]
  cases h : Stream.readLine s with
  | err e => cases e <;> rfl
  | panic => rfl
  | ok p =>
    obtain ⟨l, s'⟩ := p
    have hl := Stream.readLine_lt s s' l hN h
    have := hl.lt
    have ih' := fun o => mergeTagLoop_fuel (s.rest.length) (s'.rest.length + 1) o s'
      (by rw [hl.bufsz]; exact hN) (by omega) (by omega)
    simp only [ih']
    rfl

theorem mergeTagRun_sub (o : Tag) (s : Stream) (hN : 2 ≤ s.bufsz) (r : Tag × Option Bytes) (s' : Stream)
    (h : mergeTagRun o s = .ok (r, s')) : Stream.Sub s' s ∧ (r.2 ≠ none → Stream.Lt s' s) := by
  induction s using stream_induct generalizing o with
  | h s ih =>
    rw [mergeTagRun_eq o s hN] at h
    cases hr : Stream.readLine s with
    | err e =>
      rw [hr] at h
      cases e <;> simp at h
      rw [← h.2, ← h.1]; exact ⟨.refl _, by simp⟩
    | panic => rw [hr] at h; simp at h
    | ok p =>
      obtain ⟨l, s1⟩ := p
      have hl := Stream.readLine_lt s s1 l hN hr
      rw [hr] at h
      simp only at h
      have hN1 : 2 ≤ s1.bufsz := by rw [hl.bufsz]; exact hN
      have key : ∀ o, mergeTagRun o s1 = .ok (r, s') →
          Stream.Sub s' s ∧ (r.2 ≠ none → Stream.Lt s' s) := fun o ho =>
        have := ih s1 hl o hN1 ho
        ⟨this.1.trans hl.toSub, fun _ => this.1.trans_lt hl⟩
      split at h
      · obtain ⟨x, _, h⟩ := Res.bind_eq_ok.1 h; exact key _ h
      · split at h
        · obtain ⟨x, _, h⟩ := Res.bind_eq_ok.1 h; exact key _ h
        · split at h
          · obtain ⟨x, _, h⟩ := Res.bind_eq_ok.1 h
            obtain ⟨y, _, h⟩ := Res.bind_eq_ok.1 h; exact key _ h
          · split at h
            · obtain ⟨⟨⟨m, rest⟩, s2⟩, hm, h⟩ := Res.bind_eq_ok.1 h
              simp only [Res.ok.injEq, Prod.mk.injEq] at h
              have := (mergeMsgRun_lt _ _ hN1 _ _ hm).trans_sub hl.toSub
              rw [← h.2]; exact ⟨this.toSub, fun _ => this⟩
            · exact key _ h

/-! ## signature -/

theorem sigLoop_fuel (f g : Nat) (m : Bytes) (s : Stream) (hN : 2 ≤ s.bufsz)
    (hf : s.rest.length < f) (hg : s.rest.length < g) : sigLoop f m s = sigLoop g m s := by
  induction f generalizing g m s with
  | zero => omega
  | succ f ih =>
    cases g with
    | zero => omega
    | succ g =>
      simp only [sigLoop, reader_readLine]
      cases h : Stream.readLine s with
      | err e => cases e <;> rfl
      | panic => rfl
      | ok p =>
        obtain ⟨l, s'⟩ := p
        have hl := Stream.readLine_lt s s' l hN h
        have := hl.lt
        simp only
        split
        · rfl
        · exact ih g _ s' (by rw [hl.bufsz]; exact hN) (by omega) (by omega)

/-- The signature loop with enough fuel. -/
def sigRun (m : Bytes) (s : Stream) : Res (Bytes × Stream) := sigLoop (s.rest.length + 1) m s

theorem sigRun_eq (m : Bytes) (s : Stream) (hN : 2 ≤ s.bufsz) :
    sigRun m s = match Stream.readLine s with
      | .err e => .err e
      | .panic => .panic
      | .ok (line, s) =>
        if line = b!" -----END PGP SIGNATURE-----" then .ok (m, s)
        else sigRun (m ++ (line ++ [LF])) s := by
  show sigLoop (s.rest.length + 1) m s = _
  rw [sigLoop, reader_readLine]
  cases h : Stream.readLine s with
  | err e => cases e <;> rfl
  | panic => rfl
  | ok p =>
    obtain ⟨l, s'⟩ := p
    have hl := Stream.readLine_lt s s' l hN h
    have := hl.lt
    simp only
    split
    · rfl
    · exact sigLoop_fuel _ _ _ _ (by rw [hl.bufsz]; exact hN) (by omega) (by omega)

theorem sigRun_lt (m : Bytes) (s : Stream) (hN : 2 ≤ s.bufsz) (r : Bytes) (s' : Stream)
    (h : sigRun m s = .ok (r, s')) : Stream.Lt s' s := by
  induction s using stream_induct generalizing m with
  | h s ih =>
    rw [sigRun_eq m s hN] at h
    cases hr : Stream.readLine s with
    | err e => rw [hr] at h; simp at h
    | panic => rw [hr] at h; simp at h
    | ok p =>
      obtain ⟨l, s1⟩ := p
      have hl := Stream.readLine_lt s s1 l hN hr
      rw [hr] at h
      simp only at h
      split at h
      · simp only [Res.ok.injEq, Prod.mk.injEq] at h
        rw [← h.2]; exact hl
      · exact (ih s1 hl _ (by rw [hl.bufsz]; exact hN) h).trans_sub hl.toSub

theorem decodeGpgSig_eq (s : Stream) : decodeGpgSig s = (do
    let (line, s) ← Stream.readLine s
    let sig ←
      (if line ≠ b!" " then
        if hasPrefix line b!" Version: " || hasPrefix line b!" Comment: " then .ok (line ++ [LF])
        else .err .badSig
      else .ok b!" \n")
    sigRun sig s) := rfl

theorem decodeGpgSig_lt (s : Stream) (hN : 2 ≤ s.bufsz) (r : Bytes) (s' : Stream)
    (h : decodeGpgSig s = .ok (r, s')) : Stream.Lt s' s := by
  rw [decodeGpgSig_eq] at h
  obtain ⟨⟨l, s1⟩, h1, h⟩ := Res.bind_eq_ok.1 h
  obtain ⟨sig, h2, h⟩ := Res.bind_eq_ok.1 h
  have hl := Stream.readLine_lt s s1 l hN h1
  exact (sigRun_lt _ _ (by rw [hl.bufsz]; exact hN) _ _ h).trans_sub hl.toSub

/-! ## commit lines -/

theorem readMergeTag_eq (hash : Bytes) (s : Stream) : readMergeTag hash s = (do
    let c ← shaToCid hash
    mergeTagRun { Tag.zero with object := .cid c } s) := rfl

theorem readMergeTag_sub (hash : Bytes) (s : Stream) (hN : 2 ≤ s.bufsz) (r : Tag × Option Bytes)
    (s' : Stream) (h : readMergeTag hash s = .ok (r, s')) :
    Stream.Sub s' s ∧ (r.2 ≠ none → Stream.Lt s' s) := by
  rw [readMergeTag_eq] at h
  obtain ⟨c, _, h⟩ := Res.bind_eq_ok.1 h
  exact mergeTagRun_sub _ _ hN _ _ h

theorem commitLine_fuel (f g : Nat) (c : Commit) (line : Bytes) (s : Stream) (hN : 2 ≤ s.bufsz)
    (hf : s.rest.length < f) (hg : s.rest.length < g) :
    commitLine f c line s = commitLine g c line s := by
  induction f generalizing g c line s with
  | zero => omega
  | succ f ih =>
    cases g with
    | zero => omega
    | succ g =>
      simp only [commitLine]
      repeat (split; · rfl)
      split
      · cases hs : sliceFrom line 16 with
        | err e => cases e <;> rfl
        | panic => rfl
        | ok h =>
          simp only [Res.bind_ok]
          cases hx : hexDecode h with
          | err e => cases e <;> rfl
          | panic => rfl
          | ok sha =>
            simp only [Res.bind_ok]
            cases hm : readMergeTag sha s with
            | err e => cases e <;> rfl
            | panic => rfl
            | ok p =>
              obtain ⟨⟨mt, rest⟩, s'⟩ := p
              have := readMergeTag_sub sha s hN _ _ hm
              simp only [Res.bind_ok]
              cases rest with
              | none => rfl
              | some l =>
                have hlt := this.2 (by simp)
                have := hlt.lt
                exact ih g _ _ s' (by rw [hlt.bufsz]; exact hN) (by omega) (by omega)
      · rfl

/-- `decodeCommitLine` with enough fuel. -/
def commitLineRun (c : Commit) (line : Bytes) (s : Stream) : Res (Commit × Stream) :=
  commitLine (s.rest.length + 1) c line s

theorem commitLineRun_eq (c : Commit) (line : Bytes) (s : Stream) (hN : 2 ≤ s.bufsz) :
    commitLineRun c line s =
    if hasPrefix line b!"tree " then do
      let h ← sliceFrom line 5
      let sha ← hexDecode h
      let cid ← shaToCid sha
      .ok ({ c with tree := .cid cid }, s)
    else if hasPrefix line b!"parent " then do
      let h ← sliceFrom line 7
      let sha ← hexDecode h
      let cid ← shaToCid sha
      .ok ({ c with parents := c.parents ++ [.cid cid] }, s)
    else if hasPrefix line b!"author " then do
      let p ← parsePersonInfo line
      .ok ({ c with author := some p }, s)
    else if hasPrefix line b!"committer " then do
      let p ← parsePersonInfo line
      .ok ({ c with committer := some p }, s)
    else if hasPrefix line b!"encoding " then do
      let x ← sliceFrom line 9
      .ok ({ c with encoding := some x }, s)
    else if hasPrefix line b!"mergetag object " then do
      let h ← sliceFrom line 16
      let sha ← hexDecode h
      let ((mt, rest), s) ← readMergeTag sha s
      match rest with
      | none => .ok ({ c with mergetag := c.mergetag ++ [mt] }, s)
      | some l => commitLineRun { c with mergetag := c.mergetag ++ [mt] } l s
    else if hasPrefix line b!"gpgsig " then do
      let (sig, s) ← decodeGpgSig s
      .ok ({ c with signature := some sig }, s)
    else if line.length = 0 then do
      let (rest, s) ← Stream.readAll s
      .ok ({ c with message := rest }, s)
    else .ok ({ c with other := c.other ++ [line] }, s) := by
  show commitLine (s.rest.length + 1) c line s = _
  rw [commitLine]
  simp only [reader_readAll]
  repeat (split; · rfl)
  split
  · cases hs : sliceFrom line 16 with
    | err e => cases e <;> rfl
    | panic => rfl
    | ok h =>
      simp only [Res.bind_ok]
      cases hx : hexDecode h with
      | err e => cases e <;> rfl
      | panic => rfl
      | ok sha =>
        simp only [Res.bind_ok]
        cases hm : readMergeTag sha s with
        | err e => cases e <;> rfl
        | panic => rfl
        | ok p =>
          obtain ⟨⟨mt, rest⟩, s'⟩ := p
          have := readMergeTag_sub sha s hN _ _ hm
          simp only [Res.bind_ok]
          cases rest with
          | none => rfl
          | some l =>
            have hlt := this.2 (by simp)
            have := hlt.lt
            exact commitLine_fuel _ _ _ _ s' (by rw [hlt.bufsz]; exact hN) (by omega) (by omega)
  · rfl

theorem commitLineRun_sub (c : Commit) (line : Bytes) (s : Stream) (hN : 2 ≤ s.bufsz) (r : Commit)
    (s' : Stream) (h : commitLineRun c line s = .ok (r, s')) : Stream.Sub s' s := by
  induction s using stream_induct generalizing c line with
  | h s ih =>
    rw [commitLineRun_eq c line s hN] at h
    iterate 2 (
      split at h
      · obtain ⟨x, _, h⟩ := Res.bind_eq_ok.1 h
        obtain ⟨y, _, h⟩ := Res.bind_eq_ok.1 h
        obtain ⟨z, _, h⟩ := Res.bind_eq_ok.1 h
        simp only [Res.ok.injEq, Prod.mk.injEq] at h
        rw [← h.2]; exact .refl _)
    iterate 3 (
      split at h
      · obtain ⟨x, _, h⟩ := Res.bind_eq_ok.1 h
        simp only [Res.ok.injEq, Prod.mk.injEq] at h
        rw [← h.2]; exact .refl _)
    split at h
    · obtain ⟨x, _, h⟩ := Res.bind_eq_ok.1 h
      obtain ⟨y, _, h⟩ := Res.bind_eq_ok.1 h
      obtain ⟨⟨⟨mt, rest⟩, s1⟩, hm, h⟩ := Res.bind_eq_ok.1 h
      have hsub := readMergeTag_sub _ _ hN _ _ hm
      simp only at h
      cases rest with
      | none =>
        simp only [Res.ok.injEq, Prod.mk.injEq] at h
        rw [← h.2]; exact hsub.1
      | some l =>
        have hlt := hsub.2 (by simp)
        exact (ih s1 hlt _ _ (by rw [hlt.bufsz]; exact hN) h).trans hlt.toSub
    split at h
    · obtain ⟨⟨sig, s1⟩, hg, h⟩ := Res.bind_eq_ok.1 h
      simp only [Res.ok.injEq, Prod.mk.injEq] at h
      rw [← h.2]; exact (decodeGpgSig_lt _ hN _ _ hg).toSub
    split at h
    · obtain ⟨⟨x, s1⟩, hg, h⟩ := Res.bind_eq_ok.1 h
      simp only [Res.ok.injEq, Prod.mk.injEq] at h
      rw [← h.2]; exact Stream.readAll_sub _ _ _ hg
    · simp only [Res.ok.injEq, Prod.mk.injEq] at h
      rw [← h.2]; exact .refl _

theorem commitLoop_fuel (f g : Nat) (c : Commit) (s : Stream) (hN : 2 ≤ s.bufsz)
    (hf : s.rest.length < f) (hg : s.rest.length < g) : commitLoop f c s = commitLoop g c s := by
  induction f generalizing g c s with
  | zero => omega
  | succ f ih =>
    cases g with
    | zero => omega
    | succ g =>
      simp only [commitLoop, reader_readLine, reader_left]
      cases h : Stream.readLine s with
      | err e => cases e <;> rfl
      | panic => rfl
      | ok p =>
        obtain ⟨l, s'⟩ := p
        have hl := Stream.readLine_lt s s' l hN h
        have := hl.lt
        have hN' : 2 ≤ s'.bufsz := by rw [hl.bufsz]; exact hN
        simp only
        cases hc : commitLine (s'.rest.length + 1) c l s' with
        | err e => cases e <;> rfl
        | panic => rfl
        | ok q =>
          obtain ⟨c', s''⟩ := q
          have hs := commitLineRun_sub c l s' hN' c' s'' hc
          have := hs.le
          exact ih g c' s'' (by rw [hs.bufsz]; exact hN') (by omega) (by omega)

/-- The loop of `DecodeCommit` with enough fuel. -/
def commitRun (c : Commit) (s : Stream) : Res Commit := commitLoop (s.rest.length + 1) c s

theorem commitRun_eq (c : Commit) (s : Stream) (hN : 2 ≤ s.bufsz) :
    commitRun c s = match Stream.readLine s with
      | .err .eof => .ok c
      | .err e => .err e
      | .panic => .panic
      | .ok (line, s) => commitLineRun c line s >>= fun p => commitRun p.1 p.2 := by
  show commitLoop (s.rest.length + 1) c s = _
  rw [commitLoop, reader_readLine]
  simp only [reader_left]
  cases h : Stream.readLine s with
  | err e => cases e <;> rfl
  | panic => rfl
  | ok p =>
    obtain ⟨l, s'⟩ := p
    have hl := Stream.readLine_lt s s' l hN h
    have := hl.lt
    have hN' : 2 ≤ s'.bufsz := by rw [hl.bufsz]; exact hN
    simp only [commitLineRun]
    cases hc : commitLine (s'.rest.length + 1) c l s' with
    | err e => cases e <;> rfl
    | panic => rfl
    | ok q =>
      obtain ⟨c', s''⟩ := q
      have hs := commitLineRun_sub c l s' hN' c' s'' hc
      have := hs.le
      show commitLoop s.rest.length c' s'' = commitLoop (s''.rest.length + 1) c' s''
      exact commitLoop_fuel _ _ c' s'' (by rw [hs.bufsz]; exact hN') (by omega) (by omega)

theorem decodeCommit_eq (s : Stream) :
    decodeCommit s = readNum s >>= fun p => commitRun Commit.zero p.2 := rfl

/-! ## tag -/

theorem tagLine_sub (o : Tag) (line : Bytes) (s : Stream) (r : Tag) (s' : Stream)
    (h : tagLine o line s = .ok (r, s')) : Stream.Sub s' s := by
  unfold tagLine at h
  split at h
  · obtain ⟨x, _, h⟩ := Res.bind_eq_ok.1 h
    obtain ⟨y, _, h⟩ := Res.bind_eq_ok.1 h
    obtain ⟨z, _, h⟩ := Res.bind_eq_ok.1 h
    simp only [Res.ok.injEq, Prod.mk.injEq] at h
    rw [← h.2]; exact .refl _
  iterate 3 (
    split at h
    · obtain ⟨x, _, h⟩ := Res.bind_eq_ok.1 h
      simp only [Res.ok.injEq, Prod.mk.injEq] at h
      rw [← h.2]; exact .refl _)
  split at h
  · obtain ⟨⟨x, s1⟩, hg, h⟩ := Res.bind_eq_ok.1 h
    simp only [Res.ok.injEq, Prod.mk.injEq] at h
    rw [← h.2]; exact Stream.readAll_sub _ _ _ hg
  · simp only [Res.ok.injEq, Prod.mk.injEq] at h
    rw [← h.2]; exact .refl _

theorem tagLoop_fuel (f g : Nat) (c : Tag) (s : Stream) (hN : 2 ≤ s.bufsz)
    (hf : s.rest.length < f) (hg : s.rest.length < g) : tagLoop f c s = tagLoop g c s := by
  induction f generalizing g c s with
  | zero => omega
  | succ f ih =>
    cases g with
    | zero => omega
    | succ g =>
      simp only [tagLoop, reader_readLine]
      cases h : Stream.readLine s with
      | err e => cases e <;> rfl
      | panic => rfl
      | ok p =>
        obtain ⟨l, s'⟩ := p
        have hl := Stream.readLine_lt s s' l hN h
        have := hl.lt
        have hN' : 2 ≤ s'.bufsz := by rw [hl.bufsz]; exact hN
        simp only
        cases hc : tagLine c l s' with
        | err e => cases e <;> rfl
        | panic => rfl
        | ok q =>
          obtain ⟨c', s''⟩ := q
          have hs := tagLine_sub c l s' c' s'' hc
          have := hs.le
          exact ih g c' s'' (by rw [hs.bufsz]; exact hN') (by omega) (by omega)

/-- The loop of `DecodeTag` with enough fuel. -/
def tagRun (c : Tag) (s : Stream) : Res Tag := tagLoop (s.rest.length + 1) c s

theorem tagRun_eq (c : Tag) (s : Stream) (hN : 2 ≤ s.bufsz) :
    tagRun c s = match Stream.readLine s with
      | .err .eof => .ok c
      | .err e => .err e
      | .panic => .panic
      | .ok (line, s) => tagLine c line s >>= fun p => tagRun p.1 p.2 := by
  show tagLoop (s.rest.length + 1) c s = _
  rw [tagLoop, reader_readLine]
  cases h : Stream.readLine s with
  | err e => cases e <;> rfl
  | panic => rfl
  | ok p =>
    obtain ⟨l, s'⟩ := p
    have hl := Stream.readLine_lt s s' l hN h
    have := hl.lt
    have hN' : 2 ≤ s'.bufsz := by rw [hl.bufsz]; exact hN
    simp only
    cases hc : tagLine c l s' with
    | err e => cases e <;> rfl
    | panic => rfl
    | ok q =>
      obtain ⟨c', s''⟩ := q
      have hs := tagLine_sub c l s' c' s'' hc
      have := hs.le
      show tagLoop s.rest.length c' s'' = tagLoop (s''.rest.length + 1) c' s''
      exact tagLoop_fuel _ _ c' s'' (by rw [hs.bufsz]; exact hN') (by omega) (by omega)

theorem decodeTag_eq (s : Stream) :
    decodeTag s = Stream.readString NUL s >>= fun p => tagRun Tag.zero p.2 := rfl

/-! ## tree -/

theorem decodeTreeEntry_lt (s s' : Stream) (x : Bytes × TreeEntry)
    (h : decodeTreeEntry s = .ok (x, s')) : Stream.Lt s' s := by
  unfold decodeTreeEntry at h
  simp only [reader_readString, reader_readFull] at h
  obtain ⟨⟨d, s1⟩, h1, h⟩ := Res.bind_eq_ok.1 h
  obtain ⟨d', _, h⟩ := Res.bind_eq_ok.1 h
  obtain ⟨⟨n, s2⟩, h2, h⟩ := Res.bind_eq_ok.1 h
  obtain ⟨n', _, h⟩ := Res.bind_eq_ok.1 h
  obtain ⟨⟨sh, s3⟩, h3, h⟩ := Res.bind_eq_ok.1 h
  obtain ⟨c, _, h⟩ := Res.bind_eq_ok.1 h
  simp only [Res.ok.injEq, Prod.mk.injEq] at h
  rw [← h.2]
  exact ((Stream.readFull_sub _ _ _ _ h3).trans (Stream.readString_lt _ _ _ _ h2).toSub).trans_lt
    (Stream.readString_lt _ _ _ _ h1)

theorem treeLoop_fuel (f g : Nat) (c : Tree) (s : Stream)
    (hf : s.rest.length < f) (hg : s.rest.length < g) : treeLoop f c s = treeLoop g c s := by
  induction f generalizing g c s with
  | zero => omega
  | succ f ih =>
    cases g with
    | zero => omega
    | succ g =>
      simp only [treeLoop]
      cases h : decodeTreeEntry s with
      | err e => cases e <;> rfl
      | panic => rfl
      | ok p =>
        obtain ⟨⟨n, e⟩, s'⟩ := p
        have hl := decodeTreeEntry_lt s s' _ h
        have := hl.lt
        simp only
        cases hc : treeAdd c n e with
        | err e => cases e <;> rfl
        | panic => rfl
        | ok q => exact ih g _ _ (by omega) (by omega)

/-- The loop of `DecodeTree` with enough fuel. -/
def treeRun (c : Tree) (s : Stream) : Res Tree := treeLoop (s.rest.length + 1) c s

theorem treeRun_eq (c : Tree) (s : Stream) :
    treeRun c s = match decodeTreeEntry s with
      | .err .eof => .ok c
      | .err e => .err e
      | .panic => .panic
      | .ok ((name, e), s) => treeAdd c name e >>= fun t => treeRun t s := by
  show treeLoop (s.rest.length + 1) c s = _
  rw [treeLoop]
  cases h : decodeTreeEntry s with
  | err e => cases e <;> rfl
  | panic => rfl
  | ok p =>
    obtain ⟨⟨n, e⟩, s'⟩ := p
    have hl := decodeTreeEntry_lt s s' _ h
    have := hl.lt
    simp only
    cases hc : treeAdd c n e with
    | err e => cases e <;> rfl
    | panic => rfl
    | ok q => exact treeLoop_fuel _ _ _ _ (by omega) (by omega)

theorem decodeTree_eq (s : Stream) :
    decodeTree s = readNum s >>= fun p => treeRun { m := [], t := [] } p.2 := rfl

end Verif
