import Verif.Proofs.Depth
import Verif.Props.Links

/-!
# What a decoded object takes when it is written again

Every byte read earns 84 points, and every byte of the text that would be written
costs 59. `price` is what a line is worth once it has been read.
-/

namespace Verif

open Spec

/-! ## points -/

/-- What is left to be earned from a stream. A stream that is not at its end may
have a last line without line end. -/
def funds (s : Stream) : Nat := 84 * s.rest.length + if s.rest = [] then 0 else 84

/-- What a line is worth. -/
def price (l : Bytes) : Nat := if l.length < 57 then 84 * (l.length + 1) else 59 * (l.length + 1)

theorem price_le (l : Bytes) : 59 * (l.length + 1) ≤ price l := by
  unfold price; split <;> omega

theorem readLine_funds (s s' : Stream) (l : Bytes) (h : Stream.readLine s = .ok (l, s'))
    (hN : 58 ≤ s.bufsz) : price l + funds s' ≤ funds s := by
  have h0 := (Stream.readLine_lt s s' l (by omega) h).lt
  have hne : s.rest ≠ [] := by intro h; rw [h] at h0; simp at h0
  have hl := readLine_Line s s' l h (by omega)
  unfold funds price
  rw [if_neg hne]
  generalize s.rest = a at hl h0
  generalize s'.rest = b at hl h0
  cases hl with
  | lf => simp only [List.length_append, List.length_cons]; split <;> split <;> omega
  | crlf => simp only [List.length_append, List.length_cons]; split <;> split <;> omega
  | last => simp only [List.length_nil, if_true]; split <;> omega
  | full _ _ h hc hs => simp only [List.length_append]; split <;> split <;> omega
  | fullCR _ _ h hs => simp only [List.length_append, List.length_cons]; split <;> split <;> omega

/-! ## persons -/

/-- Bytes of the parts of a line, each with a space. -/
def partsCost : List Bytes → Nat
  | [] => 0
  | x :: r => x.length + 1 + partsCost r

theorem partsCost_split (l : Bytes) : partsCost (splitSp l) = l.length + 1 := by
  induction l with
  | nil => rfl
  | cons c cs ih =>
    unfold splitSp
    split
    · simp [partsCost, ih]; omega
    · split
      · rename_i p ps h
        rw [h] at ih
        simp only [partsCost, List.length_cons] at ih ⊢
        omega
      · rename_i h
        rw [h] at ih
        simp [partsCost] at ih

theorem nameLoop_cost (ps : List Bytes) (n n' : Bytes) (r : List Bytes) (h : nameLoop ps n = .ok (n', r)) :
    n'.length + partsCost r ≤ n.length + partsCost ps := by
  induction ps generalizing n with
  | nil => simp [nameLoop] at h
  | cons p ps ih =>
    unfold nameLoop at h
    simp only [partsCost]
    split at h
    · obtain ⟨c, _, h⟩ := Res.bind_eq_ok.1 h
      split at h
      · simp only [Res.ok.injEq, Prod.mk.injEq] at h
        obtain ⟨rfl, rfl⟩ := h
        simp only [partsCost]; omega
      · have := ih _ h
        simp only [List.length_append, List.length_cons, List.length_nil] at this
        omega
    · split at h
      · have := ih _ h
        simp only [List.length_append, List.length_cons, List.length_nil] at this
        omega
      · have := ih _ h
        omega

theorem sliceFrom_length (l x : Bytes) (n : Nat) (h : sliceFrom l n = .ok x) : x.length + n = l.length := by
  unfold sliceFrom at h
  split at h
  · simp only [Res.ok.injEq] at h
    rw [← h, List.length_drop]; omega
  · simp at h

theorem emailLoop_cost (ps : List Bytes) (n n' : Bytes) (r : List Bytes) (h : emailLoop ps n = .ok (n', r)) :
    n'.length + 2 + partsCost r ≤ n.length + partsCost ps := by
  induction ps generalizing n with
  | nil => simp [emailLoop] at h
  | cons p ps ih =>
    unfold emailLoop at h
    simp only [partsCost]
    obtain ⟨q, hq, h⟩ := Res.bind_eq_ok.1 h
    have hle : q.length ≤ p.length := by
      split at hq
      · obtain ⟨c, _, hq⟩ := Res.bind_eq_ok.1 hq
        split at hq
        · have := sliceFrom_length _ _ _ hq; omega
        · simp only [Res.ok.injEq] at hq; rw [hq]; exact Nat.le_refl _
      · simp only [Res.ok.injEq] at hq; rw [hq]; exact Nat.le_refl _
    split at h
    · obtain ⟨c, _, h⟩ := Res.bind_eq_ok.1 h
      split at h
      · obtain ⟨x, hx, h⟩ := Res.bind_eq_ok.1 h
        simp only [Res.ok.injEq, Prod.mk.injEq] at h
        obtain ⟨rfl, rfl⟩ := h
        have : x.length + 1 = q.length := by
          unfold chop at hx
          split at hx
          · simp at hx
          · simp only [Res.ok.injEq] at hx
            rw [← hx, List.length_dropLast]
            omega
        simp only [List.length_append]
        omega
      · have := ih _ h
        simp only [List.length_append, List.length_cons, List.length_nil] at this
        omega
    · have := ih _ h
      simp only [List.length_append, List.length_cons, List.length_nil] at this
      omega

/-- A part that is left out when it is empty. -/
def optLen (x : Bytes) : Nat := if x = [] then 0 else x.length + 1

theorem gitString_length (p : PersonInfo) :
    (gitString p).length = 3 + p.name.length + p.email.length + optLen p.date + optLen p.timezone := by
  obtain ⟨n, e, d, t⟩ := p
  cases d <;> cases t <;> simp [gitString, optLen] <;> omega

theorem gitString_le (p : PersonInfo) (r : List Bytes) (k : Nat)
    (h : p.name.length + p.email.length + optLen p.date + optLen p.timezone ≤ k + partsCost r) :
    (gitString p).length ≤ 3 + k + partsCost r := by
  rw [gitString_length]; omega

/-- A person is written with at most one byte more than the line had. -/
theorem person_growth (l : Bytes) (p : PersonInfo) (h : parsePersonInfo l = .ok p) :
    (gitString p).length ≤ l.length + 1 := by
  unfold parsePersonInfo at h
  simp only at h
  split at h
  · simp at h
  · obtain ⟨⟨n, r⟩, h1, h⟩ := Res.bind_eq_ok.1 h
    obtain ⟨n', h2, h⟩ := Res.bind_eq_ok.1 h
    obtain ⟨⟨e, r'⟩, h3, h⟩ := Res.bind_eq_ok.1 h
    simp only [Res.ok.injEq] at h
    have c0 := partsCost_split l
    have c1 := nameLoop_cost _ _ _ _ h1
    have c2 := emailLoop_cost _ _ _ _ h3
    have hd : partsCost ((splitSp l).drop 1) ≤ l.length := by
      cases hs : splitSp l with
      | nil => simp [partsCost]
      | cons x xs => rw [hs] at c0; simp only [partsCost] at c0; simp only [List.drop_succ_cons, List.drop_zero]; omega
    have hn : n'.length ≤ n.length := by
      split at h2
      · unfold chop at h2
        split at h2
        · simp at h2
        · simp only [Res.ok.injEq] at h2; rw [← h2, List.length_dropLast]; omega
      · simp only [Res.ok.injEq] at h2; rw [← h2]; exact Nat.zero_le _
    simp only [List.length_nil] at c1 c2
    have hg : (gitString p).length ≤ 3 + (n'.length + e.length) + partsCost r' := by
      subst h
      cases r' with
      | nil => exact gitString_le _ _ _ (by simp [personRest, optLen, partsCost])
      | cons d r' =>
        cases r' with
        | nil =>
          refine gitString_le _ _ _ ?_
          simp only [personRest, partsCost]
          cases d <;> simp [optLen]
        | cons t r' =>
          refine gitString_le _ _ _ ?_
          simp only [personRest, partsCost]
          cases d <;> cases t <;> simp [optLen] <;> omega
    omega

/-! ## merge tags -/

/-- Bytes of a merge tag in a commit. -/
def mergeSize (t : Tag) : Nat :=
  81 + t.typ.length + t.tag.length + (gitString t.tagger).length + t.message.length

/-- A merge tag that takes `a` points when there are `b`: it is ended by a line, and
the points for the line before its message are left, or by the end of the
stream. -/
def MergeEnds (r : Option Bytes) (s' : Stream) (a b : Nat) : Prop :=
  match r with
  | none => s'.rest = [] ∧ a ≤ b
  | some l => a + 168 + price l + funds s' ≤ b

theorem mergeMsgRun_funds (m : Bytes) (s : Stream) (hN : 58 ≤ s.bufsz) (m' l : Bytes) (s' : Stream)
    (h : mergeMsgRun m s = .ok ((m', l), s')) :
    59 * m'.length + price l + funds s' ≤ 59 * m.length + funds s := by
  induction s using stream_induct generalizing m with
  | h s ih =>
    rw [mergeMsgRun_eq m s (by omega)] at h
    cases hr : Stream.readLine s with
    | err e => rw [hr] at h; simp at h
    | panic => rw [hr] at h; simp at h
    | ok p =>
      obtain ⟨l1, s1⟩ := p
      have hl := Stream.readLine_lt s s1 l1 (by omega) hr
      have hf := readLine_funds s s1 l1 hr hN
      rw [hr] at h
      simp only at h
      split at h
      · simp only [Res.ok.injEq, Prod.mk.injEq] at h
        obtain ⟨⟨rfl, rfl⟩, rfl⟩ := h
        omega
      · have := ih s1 hl _ (by rw [hl.bufsz]; exact hN) h
        have := price_le l1
        simp only [List.length_append, List.length_cons, List.length_nil] at *
        omega

theorem mergeTagRun_funds (o : Tag) (s : Stream) (hN : 58 ≤ s.bufsz) (o' : Tag) (r : Option Bytes)
    (s' : Stream) (hm : o.message = []) (h : mergeTagRun o s = .ok ((o', r), s')) :
    MergeEnds r s' (59 * mergeSize o') (59 * mergeSize o + funds s) := by
  induction s using stream_induct generalizing o with
  | h s ih =>
    rw [mergeTagRun_eq o s (by omega)] at h
    cases hr : Stream.readLine s with
    | err e =>
      rw [hr] at h
      cases e <;> simp at h
      obtain ⟨⟨rfl, rfl⟩, rfl⟩ := h
      refine ⟨?_, by omega⟩
      cases hs : s.rest with
      | nil => rfl
      | cons c cs =>
        exfalso
        unfold Stream.readLine at hr
        rw [hs] at hr
        simp only at hr
        split at hr
        · cases hr
        · split at hr
          · split at hr <;> cases hr
          · cases hr
    | panic => rw [hr] at h; simp at h
    | ok p =>
      obtain ⟨l, s1⟩ := p
      have hl := Stream.readLine_lt s s1 l (by omega) hr
      have hf := readLine_funds s s1 l hr hN
      have hp := price_le l
      rw [hr] at h
      simp only at h
      have hN1 : 58 ≤ s1.bufsz := by rw [hl.bufsz]; exact hN
      have key : ∀ o1 : Tag, o1.message = [] → mergeSize o1 ≤ mergeSize o + l.length + 1 →
          mergeTagRun o1 s1 = .ok ((o', r), s') →
          MergeEnds r s' (59 * mergeSize o') (59 * mergeSize o + funds s) := by
        intro o1 hm1 hle ho
        have := ih s1 hl o1 hN1 hm1 ho
        cases r with
        | none => exact ⟨this.1, by have := this.2; omega⟩
        | some l' => simp only [MergeEnds] at this ⊢; omega
      split at h
      · obtain ⟨x, hx, h⟩ := Res.bind_eq_ok.1 h
        have := sliceFrom_length _ _ _ hx
        exact key _ (by exact hm) (by simp only [mergeSize]; omega) h
      · split at h
        · obtain ⟨x, hx, h⟩ := Res.bind_eq_ok.1 h
          have := sliceFrom_length _ _ _ hx
          exact key _ (by exact hm) (by simp only [mergeSize]; omega) h
        · split at h
          · obtain ⟨x, hx, h⟩ := Res.bind_eq_ok.1 h
            obtain ⟨y, hy, h⟩ := Res.bind_eq_ok.1 h
            have := sliceFrom_length _ _ _ hx
            have := person_growth _ _ hy
            exact key _ (by exact hm) (by simp only [mergeSize]; omega) h
          · split at h
            · rename_i hsp
              obtain ⟨⟨⟨m, rest⟩, s2⟩, hmm, h⟩ := Res.bind_eq_ok.1 h
              simp only [Res.ok.injEq, Prod.mk.injEq] at h
              obtain ⟨⟨rfl, rfl⟩, rfl⟩ := h
              have hc := mergeMsgRun_funds _ _ hN1 _ _ _ hmm
              have h168 : price l = 168 := by rw [hsp]; rfl
              simp only [MergeEnds, mergeSize, hm, List.length_nil] at hc ⊢
              omega
            · exact key _ (by exact hm) (by omega) h

theorem readMergeTag_funds (hash : Bytes) (s : Stream) (hN : 58 ≤ s.bufsz) (o' : Tag) (r : Option Bytes)
    (s' : Stream) (h : readMergeTag hash s = .ok ((o', r), s')) :
    MergeEnds r s' (59 * mergeSize o') (59 * 84 + funds s) := by
  rw [readMergeTag_eq] at h
  obtain ⟨c, _, h⟩ := Res.bind_eq_ok.1 h
  exact mergeTagRun_funds _ s hN o' r s' rfl h

/-! ## signatures -/

theorem sigRun_funds (m : Bytes) (s : Stream) (hN : 58 ≤ s.bufsz) (m' : Bytes) (s' : Stream)
    (h : sigRun m s = .ok (m', s')) : 59 * m'.length + funds s' ≤ 59 * m.length + funds s := by
  induction s using stream_induct generalizing m with
  | h s ih =>
    rw [sigRun_eq m s (by omega)] at h
    cases hr : Stream.readLine s with
    | err e => rw [hr] at h; simp at h
    | panic => rw [hr] at h; simp at h
    | ok p =>
      obtain ⟨l1, s1⟩ := p
      have hl := Stream.readLine_lt s s1 l1 (by omega) hr
      have hf := readLine_funds s s1 l1 hr hN
      rw [hr] at h
      simp only at h
      split at h
      · simp only [Res.ok.injEq, Prod.mk.injEq] at h
        obtain ⟨rfl, rfl⟩ := h
        omega
      · have := ih s1 hl _ (by rw [hl.bufsz]; exact hN) h
        have := price_le l1
        simp only [List.length_append, List.length_cons, List.length_nil] at *
        omega

theorem decodeGpgSig_funds (s : Stream) (hN : 58 ≤ s.bufsz) (g : Bytes) (s' : Stream)
    (h : decodeGpgSig s = .ok (g, s')) : 59 * g.length + funds s' ≤ funds s := by
  rw [decodeGpgSig_eq] at h
  obtain ⟨⟨l, s1⟩, h1, h⟩ := Res.bind_eq_ok.1 h
  obtain ⟨sig, h2, h⟩ := Res.bind_eq_ok.1 h
  have hl := Stream.readLine_lt s s1 l (by omega) h1
  have hf := readLine_funds s s1 l h1 hN
  have hp := price_le l
  have := sigRun_funds _ _ (by rw [hl.bufsz]; exact hN) _ _ h
  have hs : sig.length ≤ l.length + 1 := by
    split at h2
    · split at h2
      · simp only [Res.ok.injEq] at h2; rw [← h2]; simp
      · simp at h2
    · rename_i hsp
      simp only [ne_eq, Decidable.not_not] at hsp
      simp only [Res.ok.injEq] at h2
      rw [← h2, hsp]; decide
  omega

/-! ## commits -/

/-- Bytes of lines with their ends. -/
def linesSize : List Bytes → Nat
  | [] => 0
  | l :: r => l.length + 1 + linesSize r

def mergesSize : List Tag → Nat
  | [] => 0
  | t :: r => mergeSize t + mergesSize r

theorem linesSize_append (a b : List Bytes) : linesSize (a ++ b) = linesSize a + linesSize b := by
  induction a with
  | nil => simp [linesSize]
  | cons x r ih => simp only [List.cons_append, linesSize, ih]; omega

theorem mergesSize_append (a b : List Tag) : mergesSize (a ++ b) = mergesSize a + mergesSize b := by
  induction a with
  | nil => simp [mergesSize]
  | cons x r ih => simp only [List.cons_append, mergesSize, ih]; omega

def lenOf (x : Option Bytes) : Nat := (x.getD []).length

def personLen : Option PersonInfo → Nat
  | none => 0
  | some p => (gitString p).length

/-- Bytes that the body of a commit takes at most. -/
def commitSize (c : Commit) : Nat :=
  142 + 48 * c.parents.length + personLen c.author + personLen c.committer + lenOf c.encoding
    + mergesSize c.mergetag + lenOf c.signature + linesSize c.other + c.message.length

theorem commitLineRun_funds (c : Commit) (line : Bytes) (s : Stream) (hN : 58 ≤ s.bufsz) (c' : Commit)
    (s' : Stream) (h : commitLineRun c line s = .ok (c', s')) :
    59 * commitSize c' + funds s' ≤ 59 * commitSize c + price line + funds s ∨
      s'.rest = [] ∧ 59 * commitSize c' ≤ 59 * commitSize c + price line + funds s + 168 := by
  induction s using stream_induct generalizing c line with
  | h s ih =>
    have hp := price_le line
    rw [commitLineRun_eq c line s (by omega)] at h
    split at h
    · obtain ⟨x, _, h⟩ := Res.bind_eq_ok.1 h
      obtain ⟨y, _, h⟩ := Res.bind_eq_ok.1 h
      obtain ⟨z, _, h⟩ := Res.bind_eq_ok.1 h
      simp only [Res.ok.injEq, Prod.mk.injEq] at h
      obtain ⟨rfl, rfl⟩ := h
      left; simp only [commitSize]; omega
    split at h
    · obtain ⟨x, hx, h⟩ := Res.bind_eq_ok.1 h
      obtain ⟨y, hy, h⟩ := Res.bind_eq_ok.1 h
      obtain ⟨z, hz, h⟩ := Res.bind_eq_ok.1 h
      simp only [Res.ok.injEq, Prod.mk.injEq] at h
      obtain ⟨rfl, rfl⟩ := h
      have h20 := ((shaToCid_eq_ok _ _).1 hz).1
      have h40 := hexOf_length ((hexDecode_iff _ _).1 hy)
      have h47 := sliceFrom_length _ _ _ hx
      left
      simp only [commitSize, List.length_append, List.length_cons, List.length_nil]
      omega
    iterate 2 (
      split at h
      · obtain ⟨x, hx, h⟩ := Res.bind_eq_ok.1 h
        simp only [Res.ok.injEq, Prod.mk.injEq] at h
        obtain ⟨rfl, rfl⟩ := h
        have := person_growth _ _ hx
        left
        simp only [commitSize, personLen]
        omega)
    split at h
    · obtain ⟨x, hx, h⟩ := Res.bind_eq_ok.1 h
      simp only [Res.ok.injEq, Prod.mk.injEq] at h
      obtain ⟨rfl, rfl⟩ := h
      have := sliceFrom_length _ _ _ hx
      left
      simp only [commitSize, lenOf, Option.getD_some]
      omega
    split at h
    · rename_i hpre
      obtain ⟨x, hx, h⟩ := Res.bind_eq_ok.1 h
      obtain ⟨y, hy, h⟩ := Res.bind_eq_ok.1 h
      obtain ⟨⟨⟨mt, rest⟩, s1⟩, hm, h⟩ := Res.bind_eq_ok.1 h
      have hsub := readMergeTag_sub _ _ (by omega) _ _ hm
      have hf := readMergeTag_funds _ _ hN _ _ _ hm
      have h56 : line.length = 56 := by
        have h1 := sliceFrom_length _ _ _ hx
        have h2 := hexOf_length ((hexDecode_iff _ _).1 hy)
        rw [readMergeTag_eq] at hm
        obtain ⟨cid, hc, _⟩ := Res.bind_eq_ok.1 hm
        have h20 := ((shaToCid_eq_ok _ _).1 hc).1
        omega
      have hpr : price line = 84 * 57 := by unfold price; rw [h56]; rfl
      simp only at h
      cases rest with
      | none =>
        simp only [Res.ok.injEq, Prod.mk.injEq] at h
        obtain ⟨rfl, rfl⟩ := h
        right
        refine ⟨hf.1, ?_⟩
        have := hf.2
        simp only [commitSize, mergesSize_append, mergesSize]
        omega
      | some l =>
        have hlt := hsub.2 (by simp)
        simp only [MergeEnds] at hf
        have := ih s1 hlt _ _ (by rw [hlt.bufsz]; exact hN) h
        simp only [commitSize, mergesSize_append, mergesSize] at this ⊢
        rcases this with h1 | ⟨h0, h1⟩
        · left; omega
        · right; exact ⟨h0, by omega⟩
    split at h
    · obtain ⟨⟨sig, s1⟩, hg, h⟩ := Res.bind_eq_ok.1 h
      simp only [Res.ok.injEq, Prod.mk.injEq] at h
      obtain ⟨rfl, rfl⟩ := h
      have := decodeGpgSig_funds _ hN _ _ hg
      left
      simp only [commitSize, lenOf, Option.getD_some]
      omega
    split at h
    · obtain ⟨⟨x, s1⟩, hg, h⟩ := Res.bind_eq_ok.1 h
      simp only [Res.ok.injEq, Prod.mk.injEq] at h
      obtain ⟨rfl, rfl⟩ := h
      obtain ⟨_, rfl, rfl⟩ := Stream.readAll_ok _ _ _ hg
      left
      simp only [commitSize, funds, List.length_nil, if_true]
      omega
    · simp only [Res.ok.injEq, Prod.mk.injEq] at h
      obtain ⟨rfl, rfl⟩ := h
      left
      simp only [commitSize, linesSize_append, linesSize]
      omega

theorem commitLoop_funds (f : Nat) (c : Commit) (s : Stream) (hN : 58 ≤ s.bufsz) (c' : Commit)
    (h : commitLoop f c s = .ok c') : 59 * commitSize c' ≤ 59 * commitSize c + funds s + 168 := by
  induction f generalizing c s with
  | zero => simp [commitLoop] at h
  | succ f ih =>
    simp only [commitLoop, reader_readLine, reader_left] at h
    cases hr : Stream.readLine s with
    | err e =>
      rw [hr] at h
      cases e <;> simp at h
      rw [h]; omega
    | panic => rw [hr] at h; simp at h
    | ok p =>
      obtain ⟨l, s'⟩ := p
      have hlt := Stream.readLine_lt s s' l (by omega) hr
      have hN' : 58 ≤ s'.bufsz := by rw [hlt.bufsz]; exact hN
      have hf := readLine_funds s s' l hr hN
      rw [hr] at h
      obtain ⟨⟨c1, s1⟩, h1, h2⟩ := Res.bind_eq_ok.1 h
      have hs := commitLineRun_sub c l s' (by omega) c1 s1 h1
      rcases commitLineRun_funds c l s' hN' c1 s1 h1 with h3 | ⟨h0, h3⟩
      · have := ih c1 s1 (by rw [hs.bufsz]; exact hN') h2
        omega
      · have : c' = c1 := by
          cases f with
          | zero => simp [commitLoop] at h2
          | succ f =>
            simp only [commitLoop, reader_readLine] at h2
            have hr1 : Stream.readLine s1 = .err s1.fin := by unfold Stream.readLine; rw [h0]
            rw [hr1] at h2
            cases hfin : s1.fin <;> rw [hfin] at h2 <;> simp at h2
            exact h2.symm
        rw [this]
        omega

/-! ## tags -/

/-- Bytes that the body of a tag takes at most. -/
def tagSize (t : Tag) : Nat :=
  69 + t.typ.length + t.tag.length + (gitString t.tagger).length + t.message.length

theorem tagLine_funds (o : Tag) (line : Bytes) (s : Stream) (o' : Tag) (s' : Stream)
    (h : tagLine o line s = .ok (o', s')) :
    59 * tagSize o' + funds s' ≤ 59 * tagSize o + price line + funds s := by
  have hp := price_le line
  unfold tagLine at h
  split at h
  · obtain ⟨x, _, h⟩ := Res.bind_eq_ok.1 h
    obtain ⟨y, _, h⟩ := Res.bind_eq_ok.1 h
    obtain ⟨z, _, h⟩ := Res.bind_eq_ok.1 h
    simp only [Res.ok.injEq, Prod.mk.injEq] at h
    obtain ⟨rfl, rfl⟩ := h
    simp only [tagSize]; omega
  split at h
  · obtain ⟨x, hx, h⟩ := Res.bind_eq_ok.1 h
    simp only [Res.ok.injEq, Prod.mk.injEq] at h
    obtain ⟨rfl, rfl⟩ := h
    have := sliceFrom_length _ _ _ hx
    simp only [tagSize]; omega
  split at h
  · obtain ⟨x, hx, h⟩ := Res.bind_eq_ok.1 h
    simp only [Res.ok.injEq, Prod.mk.injEq] at h
    obtain ⟨rfl, rfl⟩ := h
    have := person_growth _ _ hx
    simp only [tagSize]; omega
  split at h
  · obtain ⟨x, hx, h⟩ := Res.bind_eq_ok.1 h
    simp only [Res.ok.injEq, Prod.mk.injEq] at h
    obtain ⟨rfl, rfl⟩ := h
    have := sliceFrom_length _ _ _ hx
    simp only [tagSize]; omega
  split at h
  · obtain ⟨⟨x, s1⟩, hg, h⟩ := Res.bind_eq_ok.1 h
    simp only [Res.ok.injEq, Prod.mk.injEq] at h
    obtain ⟨rfl, rfl⟩ := h
    obtain ⟨_, rfl, rfl⟩ := Stream.readAll_ok _ _ _ hg
    simp only [tagSize, funds, List.length_nil, if_true]
    omega
  · simp only [Res.ok.injEq, Prod.mk.injEq] at h
    obtain ⟨rfl, rfl⟩ := h
    omega

theorem tagLoop_funds (f : Nat) (o : Tag) (s : Stream) (hN : 58 ≤ s.bufsz) (o' : Tag)
    (h : tagLoop f o s = .ok o') : 59 * tagSize o' ≤ 59 * tagSize o + funds s := by
  induction f generalizing o s with
  | zero => simp [tagLoop] at h
  | succ f ih =>
    simp only [tagLoop, reader_readLine] at h
    cases hr : Stream.readLine s with
    | err e =>
      rw [hr] at h
      cases e <;> simp at h
      rw [h]; omega
    | panic => rw [hr] at h; simp at h
    | ok p =>
      obtain ⟨l, s'⟩ := p
      have hlt := Stream.readLine_lt s s' l (by omega) hr
      have hf := readLine_funds s s' l hr hN
      rw [hr] at h
      obtain ⟨⟨o1, s1⟩, h1, h2⟩ := Res.bind_eq_ok.1 h
      have hs := tagLine_sub o l s' o1 s1 h1
      have := tagLine_funds o l s' o1 s1 h1
      have := ih o1 s1 (by rw [hs.bufsz, hlt.bufsz]; exact hN) h2
      omega

/-! ## what is written -/

theorem linkSha_le (l : Link) (x : Bytes) (h : linkSha l = .ok x) : x.length ≤ 20 := by
  unfold linkSha at h
  split at h
  · unfold cidToSha at h
    split at h
    · simp at h
    · simp only [Res.ok.injEq] at h
      rw [← h, List.length_drop]; omega
  all_goals
    simp only [Res.ok.injEq] at h
    rw [← h]; simp

theorem encParents_le (ps : List Link) (x : Bytes) (h : encParents ps = .ok x) :
    x.length ≤ 48 * ps.length := by
  induction ps generalizing x with
  | nil => simp only [encParents, Res.ok.injEq] at h; rw [← h]; simp
  | cons p r ih =>
    unfold encParents at h
    obtain ⟨y, hy, h⟩ := Res.bind_eq_ok.1 h
    obtain ⟨z, hz, h⟩ := Res.bind_eq_ok.1 h
    have := linkSha_le _ _ hy
    have := ih _ hz
    simp only [Res.ok.injEq] at h
    rw [← h]
    simp only [List.length_append, List.length_cons, List.length_nil, hexEncode_length]
    omega

theorem encMergeTag_le (t : Tag) (x : Bytes) (h : encMergeTag t = .ok x) : x.length ≤ mergeSize t := by
  unfold encMergeTag at h
  obtain ⟨y, hy, h⟩ := Res.bind_eq_ok.1 h
  have := linkSha_le _ _ hy
  simp only [Res.ok.injEq] at h
  rw [← h]
  simp only [mergeSize, List.length_append, List.length_cons, List.length_nil, hexEncode_length]
  omega

theorem encMergeTags_le (ts : List Tag) (x : Bytes) (h : encMergeTags ts = .ok x) :
    x.length ≤ mergesSize ts := by
  induction ts generalizing x with
  | nil => simp only [encMergeTags, Res.ok.injEq] at h; rw [← h]; simp
  | cons t r ih =>
    unfold encMergeTags at h
    obtain ⟨y, hy, h⟩ := Res.bind_eq_ok.1 h
    obtain ⟨z, hz, h⟩ := Res.bind_eq_ok.1 h
    have := encMergeTag_le _ _ hy
    have := ih _ hz
    simp only [Res.ok.injEq] at h
    rw [← h]
    simp only [mergesSize, List.length_append]
    omega

theorem unlines_size (ls : List Bytes) : (unlines ls).length = linesSize ls := by
  induction ls with
  | nil => rfl
  | cons l r ih =>
    simp only [unlines, List.flatMap_cons, List.length_append, List.length_cons, List.length_nil, linesSize] at ih ⊢
    omega

theorem personOrPanic_le (p : Option PersonInfo) (x : Bytes) (h : personOrPanic p = .ok x) :
    x.length ≤ personLen p := by
  cases p with
  | none => simp [personOrPanic] at h
  | some p => simp only [personOrPanic, Res.ok.injEq] at h; rw [← h]; exact Nat.le_refl _

theorem encCommit_le (c : Commit) (out : Bytes) (h : encObj (.commit c) = .ok out) :
    ∃ body, Framed b!"commit" body out ∧ body.length ≤ commitSize c := by
  obtain ⟨th, ps, au, co, ms, h1, h2, h3, h4, h5, rfl⟩ := Props.encCommit_inv c out h
  refine ⟨_, framed_withHeader _ _, ?_⟩
  have := linkSha_le _ _ h1
  have := encParents_le _ _ h2
  have := personOrPanic_le _ _ h3
  have := personOrPanic_le _ _ h4
  have := encMergeTags_le _ _ h5
  have he : (encodingText c.encoding).length ≤ 10 + lenOf c.encoding := by
    cases c.encoding <;> simp [encodingText, lenOf, unlines]; omega
  have hs : (sigText c.signature).length ≤ 66 + lenOf c.signature := by
    cases c.signature <;> simp [sigText, lenOf, unlines, sigBegin, sigEnd]; omega
  simp only [commitSize, List.length_append, List.length_cons, List.length_nil, hexEncode_length, unlines_size]
  omega

theorem encTag_le (t : Tag) (out : Bytes) (h : encObj (.tag t) = .ok out) :
    ∃ body, Framed b!"tag" body out ∧ body.length ≤ tagSize t := by
  obtain ⟨x, hx, h⟩ := Res.bind_eq_ok.1 h
  simp only [Res.ok.injEq] at h
  refine ⟨_, by rw [← h]; exact framed_withHeader _ _, ?_⟩
  have := linkSha_le _ _ hx
  have : (if t.message ≠ [] then LF :: t.message else []).length ≤ t.message.length + 1 := by
    split <;> simp
  simp only [tagSize, List.length_append, List.length_cons, List.length_nil, hexEncode_length]
  omega

/-- A number has few digits. -/
theorem digits_le (d : Bytes) (n : Nat) (h : Canonical d n) : d.length ≤ n / 10 + 2 := by
  obtain ⟨hne, hd, hz, hv⟩ := h
  cases d with
  | nil => exact absurd rfl hne
  | cons c cs =>
    by_cases h48 : c = 48
    · subst h48
      have := hz rfl
      omega
    · have hge := value_ge_of_lead c cs (hd c (by simp)) h48
      have hpow : ∀ k, 10 * k ≤ 10 ^ k + 9 := by
        intro k
        induction k with
        | zero => omega
        | succ k ih =>
          rw [Nat.pow_succ]
          cases k with
          | zero => omega
          | succ k => omega
      have := hpow cs.length
      rw [hv] at hge
      simp only [List.length_cons]
      omega

end Verif
