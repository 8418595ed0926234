import Verif.Model.Depth
import Verif.Proofs.AcceptCommit
import Verif.Spec.Depth
import Verif.Proofs.Clean

/-!
# Lemmas for the depth of the recursion
-/

namespace Verif

open Spec

/-- A line that is shorter than the buffer costs its bytes and its end, unless it
is the last. -/
theorem readLine_cost (s s' : Stream) (l : Bytes) (h : Stream.readLine s = .ok (l, s'))
    (hN : l.length + 1 < s.bufsz) :
    (s'.rest.length + l.length + 1 ≤ s.rest.length ∨ s'.rest = []) ∧
      s'.rest.length + 1 ≤ s.rest.length := by
  have h0 := (Stream.readLine_lt s s' l (by omega) h).lt
  refine ⟨?_, h0⟩
  have hl := readLine_Line s s' l h (by omega)
  generalize s.rest = a at hl h0
  generalize s'.rest = b at hl h0
  cases hl with
  | lf => left; simp only [List.length_append, List.length_cons]; omega
  | crlf => left; simp only [List.length_append, List.length_cons]; omega
  | last => right; rfl
  | full _ _ h hc hs => omega
  | fullCR _ _ h hs => omega

/-- What is left after a merge tag that was ended by the line `l`. -/
theorem mergeMsgRun_cost (m : Bytes) (s : Stream) (hN : 2 ≤ s.bufsz) (m' l : Bytes) (s' : Stream)
    (h : mergeMsgRun m s = .ok ((m', l), s')) :
    ∃ t, Stream.Sub t s ∧ Stream.readLine t = .ok (l, s') := by
  induction s using stream_induct generalizing m with
  | h s ih =>
    rw [mergeMsgRun_eq m s hN] at h
    cases hr : Stream.readLine s with
    | err e => rw [hr] at h; simp at h
    | panic => rw [hr] at h; simp at h
    | ok p =>
      obtain ⟨l1, s1⟩ := p
      have hl := Stream.readLine_lt s s1 l1 hN hr
      rw [hr] at h
      simp only at h
      split at h
      · simp only [Res.ok.injEq, Prod.mk.injEq] at h
        obtain ⟨⟨-, rfl⟩, rfl⟩ := h
        exact ⟨s, .refl _, hr⟩
      · obtain ⟨t, ht, h1⟩ := ih s1 hl _ (by rw [hl.bufsz]; exact hN) h
        exact ⟨t, ht.trans hl.toSub, h1⟩

/-- The line that ends a merge tag was read at least two bytes after the start. -/
theorem mergeTagRun_cost (o : Tag) (s : Stream) (hN : 3 ≤ s.bufsz) (mt : Tag) (l : Bytes) (s' : Stream)
    (h : mergeTagRun o s = .ok ((mt, some l), s')) :
    ∃ t, t.bufsz = s.bufsz ∧ t.rest.length + 2 ≤ s.rest.length ∧ Stream.readLine t = .ok (l, s') := by
  induction s using stream_induct generalizing o with
  | h s ih =>
    rw [mergeTagRun_eq o s (by omega)] at h
    cases hr : Stream.readLine s with
    | err e => rw [hr] at h; cases e <;> simp at h
    | panic => rw [hr] at h; simp at h
    | ok p =>
      obtain ⟨l1, s1⟩ := p
      have hl := Stream.readLine_lt s s1 l1 (by omega) hr
      rw [hr] at h
      simp only at h
      have hN1 : 3 ≤ s1.bufsz := by rw [hl.bufsz]; exact hN
      have key : ∀ o, mergeTagRun o s1 = .ok ((mt, some l), s') →
          ∃ t, t.bufsz = s.bufsz ∧ t.rest.length + 2 ≤ s.rest.length ∧
            Stream.readLine t = .ok (l, s') := fun o ho => by
        obtain ⟨t, h1, h2, h3⟩ := ih s1 hl o hN1 ho
        have := hl.lt
        exact ⟨t, h1.trans hl.bufsz, by omega, h3⟩
      split at h
      · obtain ⟨x, _, h⟩ := Res.bind_eq_ok.1 h; exact key _ h
      · split at h
        · obtain ⟨x, _, h⟩ := Res.bind_eq_ok.1 h; exact key _ h
        · split at h
          · obtain ⟨x, _, h⟩ := Res.bind_eq_ok.1 h
            obtain ⟨y, _, h⟩ := Res.bind_eq_ok.1 h; exact key _ h
          · split at h
            · rename_i hsp
              obtain ⟨⟨⟨m, rest⟩, s2⟩, hm, h⟩ := Res.bind_eq_ok.1 h
              simp only [Res.ok.injEq, Prod.mk.injEq, Option.some.injEq] at h
              obtain ⟨⟨-, rfl⟩, rfl⟩ := h
              obtain ⟨t, ht, h1⟩ := mergeMsgRun_cost _ _ (by omega) _ _ _ hm
              refine ⟨t, ht.bufsz.trans hl.bufsz, ?_, h1⟩
              have h2 := Stream.readLine_lt t _ _ (by rw [ht.bufsz]; omega) h1
              have := h2.lt
              have := ht.le
              have hc := (readLine_cost s s1 l1 hr (by subst hsp; show 1 + 1 < _; omega)).1
              subst hsp
              have h11 : (b!" ").length = 1 := rfl
              rw [h11] at hc
              rcases hc with hc | hc
              · omega
              · have := congrArg List.length hc
                rw [List.length_nil] at this
                omega
            · exact key _ h

theorem readMergeTag_cost (hash : Bytes) (s : Stream) (hN : 3 ≤ s.bufsz) (mt : Tag) (l : Bytes)
    (s' : Stream) (h : readMergeTag hash s = .ok ((mt, some l), s')) :
    ∃ t, t.bufsz = s.bufsz ∧ t.rest.length + 2 ≤ s.rest.length ∧ Stream.readLine t = .ok (l, s') := by
  rw [readMergeTag_eq] at h
  obtain ⟨c, _, h⟩ := Res.bind_eq_ok.1 h
  exact mergeTagRun_cost _ _ hN _ _ _ h

/-- A line that needs no second frame: not the first line of a merge tag, or no
merge tag that is ended by a line follows. -/
theorem commitLine_one (d e : Nat) (c : Commit) (line : Bytes) (s : Stream)
    (h : ∀ sha, hasPrefix line b!"mergetag object " = true → hexDecode (line.drop 16) = .ok sha →
      ∀ mt l s', readMergeTag sha s = .ok ((mt, some l), s') →
        commitLine d { c with mergetag := c.mergetag ++ [mt] } l s' =
        commitLine e { c with mergetag := c.mergetag ++ [mt] } l s') :
    commitLine (d + 1) c line s = commitLine (e + 1) c line s := by
  simp only [commitLine]
  repeat (split; · rfl)
  split
  · rename_i hp
    cases hs : sliceFrom line 16 with
    | err e => cases e <;> rfl
    | panic => rfl
    | ok x =>
      have hx : x = line.drop 16 := by
        unfold sliceFrom at hs
        split at hs
        · simpa using hs.symm
        · simp at hs
      simp only [Res.bind_ok]
      cases hx' : hexDecode x with
      | err e => cases e <;> rfl
      | panic => rfl
      | ok sha =>
        simp only [Res.bind_ok]
        cases hm : readMergeTag sha s with
        | err e => cases e <;> rfl
        | panic => rfl
        | ok p =>
          obtain ⟨⟨mt, rest⟩, s'⟩ := p
          simp only [Res.bind_ok]
          cases rest with
          | none => rfl
          | some l => exact h sha hp (hx ▸ hx') mt l s' hm
  · rfl

/-- The first line of a merge tag has 56 bytes. -/
theorem mergetag_length (line sha : Bytes) (s s' : Stream) (r : Tag × Option Bytes)
    (hp : hasPrefix line b!"mergetag object " = true) (hx : hexDecode (line.drop 16) = .ok sha)
    (hm : readMergeTag sha s = .ok (r, s')) : line.length = 56 := by
  rw [readMergeTag_eq] at hm
  obtain ⟨c, hc, _⟩ := Res.bind_eq_ok.1 hm
  have h20 := ((shaToCid_eq_ok _ _).1 hc).1
  have h := hexOf_length ((hexDecode_iff _ _).1 hx)
  have h16 : 16 ≤ line.length := by
    obtain ⟨r, rfl⟩ := (hasPrefix_iff _ _).1 hp
    rw [List.length_append]
    exact Nat.le_add_right 16 _
  rw [List.length_drop] at h
  omega

/-- With room for `d` frames, `59 * d - 57` bytes behind the line are no problem. -/
theorem commitLine_room (d : Nat) (c : Commit) (line : Bytes) (s : Stream) (hN : 58 ≤ s.bufsz)
    (h : s.rest.length + 57 ≤ 59 * d) : commitLine d c line s = commitLineRun c line s := by
  unfold commitLineRun
  induction d generalizing c line s with
  | zero => omega
  | succ d ih =>
    refine commitLine_one d s.rest.length c line s fun sha hp hx mt l s' hm => ?_
    obtain ⟨t, hb, ht, hr⟩ := readMergeTag_cost sha s (by omega) mt l s' hm
    have hlt := Stream.readLine_lt t s' l (by omega) hr
    have h1 := hlt.lt
    have hb' : 58 ≤ s'.bufsz := by rw [hlt.bufsz, hb]; exact hN
    have hfuel : commitLine s.rest.length { c with mergetag := c.mergetag ++ [mt] } l s' =
        commitLine (s'.rest.length + 1) { c with mergetag := c.mergetag ++ [mt] } l s' :=
      commitLine_fuel _ _ _ _ _ (by omega) (by omega) (by omega)
    rw [hfuel]
    cases d with
    | zero => omega
    | succ d =>
      by_cases hl : l.length = 56
      · rcases (readLine_cost t s' l hr (by omega)).1 with h2 | h2
        · exact ih _ _ _ hb' (by omega)
        · exact ih _ _ _ hb' (by rw [h2, List.length_nil]; omega)
      · refine commitLine_one _ _ _ _ _ fun sha hp hx mt l s'' hm => ?_
        exact absurd (mergetag_length _ _ _ _ _ hp hx hm) hl

theorem commitLoopIn_room (d f : Nat) (c : Commit) (s : Stream) (hN : 58 ≤ s.bufsz)
    (h : s.rest.length ≤ 59 * d) : commitLoopIn d f c s = commitLoop f c s := by
  induction f generalizing c s with
  | zero => rfl
  | succ f ih =>
    simp only [commitLoopIn, commitLoop, reader_readLine, reader_left]
    cases hr : Stream.readLine s with
    | err e => cases e <;> rfl
    | panic => rfl
    | ok p =>
      obtain ⟨l, s'⟩ := p
      have hlt := Stream.readLine_lt s s' l (by omega) hr
      have h1 := hlt.lt
      have hb' : 58 ≤ s'.bufsz := by rw [hlt.bufsz]; exact hN
      have hline : commitLine d c l s' = commitLine (s'.rest.length + 1) c l s' := by
        cases d with
        | zero => omega
        | succ d =>
          by_cases hl : l.length = 56
          · rcases (readLine_cost s s' l hr (by omega)).1 with h2 | h2
            · exact commitLine_room _ _ _ _ hb' (by omega)
            · exact commitLine_room _ _ _ _ hb' (by rw [h2, List.length_nil]; omega)
          · refine commitLine_one _ _ _ _ _ fun sha hp hx mt l s'' hm => ?_
            exact absurd (mergetag_length _ _ _ _ _ hp hx hm) hl
      simp only
      rw [hline]
      cases hc : commitLine (s'.rest.length + 1) c l s' with
      | err e => cases e <;> rfl
      | panic => rfl
      | ok q =>
        obtain ⟨c', s''⟩ := q
        have hs := commitLineRun_sub c l s' (by omega) c' s'' hc
        have := hs.le
        exact ih c' s'' (by rw [hs.bufsz]; exact hb') (by omega)

/-- The number before the NUL has at least one byte. -/
theorem readNum_cost (s s' : Stream) (n : Int) (h : readNum s = .ok (n, s')) :
    s'.rest.length + 2 ≤ s.rest.length ∧ s'.bufsz = s.bufsz := by
  unfold readNum at h
  obtain ⟨⟨x, s1⟩, h1, h⟩ := Res.bind_eq_ok.1 h
  obtain ⟨a, rfl, _, hr, _, hb⟩ := Stream.readString_ok _ _ _ _ h1
  simp only [chop_concat, Res.bind_ok] at h
  obtain ⟨z, hz, h⟩ := Res.bind_eq_ok.1 h
  simp only [Res.ok.injEq, Prod.mk.injEq] at h
  obtain ⟨-, rfl⟩ := h
  refine ⟨?_, hb⟩
  cases a with
  | nil => cases hz
  | cons c cs =>
    rw [hr]
    simp only [List.length_append, List.length_cons]
    omega

/-! ## accepted commits -/

/-- A line takes no merge tag away. -/
theorem commitLineRun_grows (c : Commit) (line : Bytes) (s : Stream) (hN : 2 ≤ s.bufsz) (c' : Commit)
    (s' : Stream) (h : commitLineRun c line s = .ok (c', s')) : c.mergetag.length ≤ c'.mergetag.length := by
  induction s using stream_induct generalizing c line with
  | h s ih =>
    rw [commitLineRun_eq c line s hN] at h
    iterate 2 (
      split at h
      · obtain ⟨x, _, h⟩ := Res.bind_eq_ok.1 h
        obtain ⟨y, _, h⟩ := Res.bind_eq_ok.1 h
        obtain ⟨z, _, h⟩ := Res.bind_eq_ok.1 h
        simp only [Res.ok.injEq, Prod.mk.injEq] at h
        rw [← h.1]; exact Nat.le_refl _)
    iterate 3 (
      split at h
      · obtain ⟨x, _, h⟩ := Res.bind_eq_ok.1 h
        simp only [Res.ok.injEq, Prod.mk.injEq] at h
        rw [← h.1]; exact Nat.le_refl _)
    split at h
    · obtain ⟨x, _, h⟩ := Res.bind_eq_ok.1 h
      obtain ⟨y, _, h⟩ := Res.bind_eq_ok.1 h
      obtain ⟨⟨⟨mt, rest⟩, s1⟩, hm, h⟩ := Res.bind_eq_ok.1 h
      have hsub := readMergeTag_sub _ _ hN _ _ hm
      simp only at h
      cases rest with
      | none =>
        simp only [Res.ok.injEq, Prod.mk.injEq] at h
        rw [← h.1]; simp
      | some l =>
        have hlt := hsub.2 (by simp)
        have := ih s1 hlt _ _ (by rw [hlt.bufsz]; exact hN) h
        simp only [List.length_append, List.length_cons, List.length_nil] at this
        omega
    split at h
    · obtain ⟨⟨sig, s1⟩, hg, h⟩ := Res.bind_eq_ok.1 h
      simp only [Res.ok.injEq, Prod.mk.injEq] at h
      rw [← h.1]; exact Nat.le_refl _
    split at h
    · obtain ⟨⟨x, s1⟩, hg, h⟩ := Res.bind_eq_ok.1 h
      simp only [Res.ok.injEq, Prod.mk.injEq] at h
      rw [← h.1]; exact Nat.le_refl _
    · simp only [Res.ok.injEq, Prod.mk.injEq] at h
      rw [← h.1]; exact Nat.le_refl _

/-- One frame for each merge tag of the line and one more. -/
theorem commitLine_tags (d : Nat) (c : Commit) (line : Bytes) (s : Stream) (hN : 2 ≤ s.bufsz) (c' : Commit)
    (s' : Stream) (h : commitLineRun c line s = .ok (c', s'))
    (hd : c'.mergetag.length < c.mergetag.length + d) : commitLine d c line s = .ok (c', s') := by
  induction d generalizing c line s with
  | zero =>
    have := commitLineRun_grows c line s hN c' s' h
    omega
  | succ d ih =>
    have hrun : commitLine (s.rest.length + 1) c line s = .ok (c', s') := h
    rw [← hrun]
    refine commitLine_one d s.rest.length c line s fun sha hp hx mt l s1 hm => ?_
    have hlt := (readMergeTag_sub sha s hN _ _ hm).2 (by simp)
    have h1 := hlt.lt
    have hN1 : 2 ≤ s1.bufsz := by rw [hlt.bufsz]; exact hN
    have hfuel : commitLine s.rest.length { c with mergetag := c.mergetag ++ [mt] } l s1 =
        commitLineRun { c with mergetag := c.mergetag ++ [mt] } l s1 :=
      commitLine_fuel _ _ _ _ _ hN1 (by omega) (by omega)
    have hrest : commitLineRun { c with mergetag := c.mergetag ++ [mt] } l s1 = .ok (c', s') := by
      obtain ⟨x, rfl⟩ := (hasPrefix_iff _ _).1 hp
      rw [commitLine_merge c x s hN] at h
      have hx' : hexDecode x = .ok sha := hx
      rw [hx', Res.bind_ok, hm, Res.bind_ok] at h
      exact h
    rw [hfuel, hrest]
    refine ih _ _ _ hN1 hrest ?_
    simp only [List.length_append, List.length_cons, List.length_nil]
    omega

theorem commitLoop_grows (f : Nat) (c : Commit) (s : Stream) (hN : 2 ≤ s.bufsz) (c' : Commit)
    (h : commitLoop f c s = .ok c') : c.mergetag.length ≤ c'.mergetag.length := by
  induction f generalizing c s with
  | zero => simp [commitLoop] at h
  | succ f ih =>
    simp only [commitLoop, reader_readLine, reader_left] at h
    cases hr : Stream.readLine s with
    | err e =>
      rw [hr] at h
      cases e <;> simp at h
      rw [h]; exact Nat.le_refl _
    | panic => rw [hr] at h; simp at h
    | ok p =>
      obtain ⟨l, s'⟩ := p
      have hlt := Stream.readLine_lt s s' l hN hr
      have hN' : 2 ≤ s'.bufsz := by rw [hlt.bufsz]; exact hN
      rw [hr] at h
      obtain ⟨⟨c1, s1⟩, h1, h2⟩ := Res.bind_eq_ok.1 h
      have hs := commitLineRun_sub c l s' hN' c1 s1 h1
      exact Nat.le_trans (commitLineRun_grows c l s' hN' c1 s1 h1)
        (ih c1 s1 (by rw [hs.bufsz]; exact hN') h2)

theorem commitLoopIn_tags (d f : Nat) (c : Commit) (s : Stream) (hN : 2 ≤ s.bufsz) (c' : Commit)
    (h : commitLoop f c s = .ok c') (hd : c'.mergetag.length < d) : commitLoopIn d f c s = .ok c' := by
  induction f generalizing c s with
  | zero => simp [commitLoop] at h
  | succ f ih =>
    simp only [commitLoop, reader_readLine, reader_left] at h
    simp only [commitLoopIn, reader_readLine]
    cases hr : Stream.readLine s with
    | err e =>
      rw [hr] at h
      cases e <;> simp at h
      rw [h]
    | panic => rw [hr] at h; simp at h
    | ok p =>
      obtain ⟨l, s'⟩ := p
      have hlt := Stream.readLine_lt s s' l hN hr
      have hN' : 2 ≤ s'.bufsz := by rw [hlt.bufsz]; exact hN
      rw [hr] at h
      obtain ⟨⟨c1, s1⟩, h1, h2⟩ := Res.bind_eq_ok.1 h
      have hs := commitLineRun_sub c l s' hN' c1 s1 h1
      have hN1 : 2 ≤ s1.bufsz := by rw [hs.bufsz]; exact hN'
      have hle := commitLoop_grows f c1 s1 hN1 c' h2
      have h3 := commitLine_tags d c l s' hN' c1 s1 h1 (by omega)
      simp only [h3, Res.bind_ok]
      exact ih c1 s1 hN1 h2

/-! ## a tower of merge tags -/

/-- The merge tag in the tower. -/
def tag0 : Tag := { Tag.zero with object := gitLink (List.replicate 20 0) }

theorem tagLine0_line (N : Nat) (hN : 58 ≤ N) : HeaderLine N tagLine0 :=
  ⟨by decide, by decide, by show 56 < N; omega⟩

/-- The next line of the tower. -/
def tagsLine : Nat → Bytes
  | 0 => []
  | _ + 1 => tagLine0

/-- What follows the next line of the tower. -/
def tagsRest : Nat → Bytes
  | 0 => []
  | d + 1 => SP :: LF :: tagsText d

theorem tagsText_readLine (d N : Nat) (e : Err) (hN : 58 ≤ N) :
    Stream.readLine ⟨tagsText d, e, N⟩ = .ok (tagsLine d, ⟨tagsRest d, e, N⟩) := by
  cases d with
  | zero => exact Stream.readLine_line (l := []) [] e ⟨by simp, by simp, by show 0 < N; omega⟩
  | succ d => exact Stream.readLine_line _ e (tagLine0_line N hN)

theorem tower_mergeTag (d N : Nat) (e : Err) (hN : 58 ≤ N) :
    readMergeTag (List.replicate 20 0) (⟨tagsRest (d + 1), e, N⟩ : Stream) =
      .ok ((tag0, some (tagsLine d)), ⟨tagsRest d, e, N⟩) := by
  have h1 : Stream.readLine ⟨tagsRest (d + 1), e, N⟩ = .ok (b!" ", ⟨tagsText d, e, N⟩) :=
    Stream.readLine_line (l := b!" ") _ e ⟨by decide, by decide, by show 1 < N; omega⟩
  rw [readMergeTag_eq, shaToCid_ok _ (by simp), Res.bind_ok, mergeTagRun_eq _ _ (by show 2 ≤ N; omega), h1]
  simp only
  rw [if_neg (by decide), if_neg (by decide), if_neg (by decide), if_pos trivial,
    mergeMsgRun_eq _ _ (by show 2 ≤ N; omega), tagsText_readLine d N e hN]
  simp only
  have hp : ¬ hasPrefix (tagsLine d) b!" " = true := by
    cases d with
    | zero => decide
    | succ d => show ¬ hasPrefix tagLine0 b!" " = true; decide
  rw [if_pos hp]
  rfl

theorem tower_step (f d N : Nat) (e : Err) (c : Commit) (hN : 58 ≤ N) :
    commitLine (f + 1) c tagLine0 (⟨tagsRest (d + 1), e, N⟩ : Stream) =
      commitLine f { c with mergetag := c.mergetag ++ [tag0] } (tagsLine d) (⟨tagsRest d, e, N⟩ : Stream) := by
  rw [commitLine]
  rw [if_neg (by decide), if_neg (by decide), if_neg (by decide), if_neg (by decide), if_neg (by decide),
    if_pos (by decide)]
  have h1 : sliceFrom tagLine0 16 = .ok (tagLine0.drop 16) := rfl
  have h2 : hexDecode (tagLine0.drop 16) = .ok (List.replicate 20 0) := by decide
  rw [h1, Res.bind_ok, h2, Res.bind_ok, tower_mergeTag d N e hN]
  rfl

/-- Too few frames. -/
theorem tower_fuel (f d N : Nat) (e : Err) (c : Commit) (hN : 58 ≤ N) (h : f ≤ d) :
    commitLine f c (tagsLine d) (⟨tagsRest d, e, N⟩ : Stream) = .err .fuel := by
  induction d generalizing f c with
  | zero =>
    obtain rfl : f = 0 := by omega
    rfl
  | succ d ih =>
    cases f with
    | zero => rfl
    | succ f => exact (tower_step f d N e c hN).trans (ih f _ (by omega))

/-- Enough frames. -/
theorem tower_ok (f d N : Nat) (c : Commit) (hN : 58 ≤ N) (h : d < f) (hm : c.message = []) :
    commitLine f c (tagsLine d) (⟨tagsRest d, .eof, N⟩ : Stream) =
      .ok ({ c with mergetag := c.mergetag ++ List.replicate d tag0 }, ⟨[], .eof, N⟩) := by
  induction d generalizing f c with
  | zero =>
    cases f with
    | zero => omega
    | succ f =>
      show Res.ok (({ c with message := [] } : Commit), (⟨[], .eof, N⟩ : Stream)) = _
      rw [List.replicate_zero, List.append_nil]
      cases c
      simp only at hm
      subst hm
      rfl
  | succ d ih =>
    cases f with
    | zero => omega
    | succ f =>
      refine (tower_step f d N .eof c hN).trans ((ih f { c with mergetag := c.mergetag ++ [tag0] } (by omega) hm).trans ?_)
      simp [List.replicate_succ]

end Verif
