import Verif.Proofs.Parse
import Verif.Spec.Ground

/-!
# Where decoded values come from

Invariants of the loops: every value of a decoded object stands in the stream.
-/

namespace Verif

open Spec

theorem readLine_prefix (s s' : Stream) (l : Bytes) (h : Stream.readLine s = .ok (l, s')) :
    l <+: s.rest := by
  unfold Stream.readLine at h
  split at h
  · simp at h
  · split at h
    · rename_i a b hs
      obtain ⟨h1, _⟩ := splitAt_some _ _ _ _ hs
      simp only [Res.ok.injEq, Prod.mk.injEq] at h
      rw [← h.1]
      have ha : a <+: s.rest := (List.prefix_append a _).trans (h1 ▸ List.take_prefix _ _)
      unfold dropCR
      split
      · exact (List.dropLast_prefix a).trans ha
      · exact ha
    · split at h
      · dsimp only at h
        split at h
        · simp only [Res.ok.injEq, Prod.mk.injEq] at h
          rw [← h.1]
          exact (List.dropLast_prefix _).trans (List.take_prefix _ _)
        · simp only [Res.ok.injEq, Prod.mk.injEq] at h
          rw [← h.1]
          exact List.take_prefix _ _
      · simp only [Res.ok.injEq, Prod.mk.injEq] at h
        rw [← h.1]
        exact List.prefix_refl _

theorem readLine_infix {s s' : Stream} {l B : Bytes} (h : Stream.readLine s = .ok (l, s'))
    (hs : s.rest <:+ B) : l <:+: B :=
  (readLine_prefix _ _ _ h).isInfix.trans hs.isInfix

theorem Spec.LinesOf.nil {B : Bytes} : LinesOf B [] := ⟨[], rfl, by simp⟩

theorem Spec.LinesOf.snoc {B m l : Bytes} (h : LinesOf B m) (hl : l <:+: B) : LinesOf B (m ++ (l ++ [LF])) := by
  obtain ⟨ls, rfl, h⟩ := h
  refine ⟨ls ++ [l], by simp [unlines], ?_⟩
  intro x hx
  rcases List.mem_append.1 hx with hx | hx
  · exact h x hx
  · rw [List.mem_singleton.1 hx]; exact hl

/-! ### persons -/

theorem joinSp_append (a b : List Bytes) (ha : a ≠ []) (hb : b ≠ []) :
    joinSp (a ++ b) = joinSp a ++ SP :: joinSp b := by
  induction a with
  | nil => exact absurd rfl ha
  | cons p a ih =>
    cases a with
    | nil =>
      cases b with
      | nil => exact absurd rfl hb
      | cons q b => simp [joinSp]
    | cons q a =>
      have := ih (by simp)
      simp only [List.cons_append, joinSp] at this ⊢
      rw [this]
      simp

theorem joinSp_infix (a x b : List Bytes) : joinSp x <:+: joinSp (a ++ x ++ b) := by
  by_cases hx : x = []
  · subst hx; exact ⟨[], joinSp (a ++ [] ++ b), by simp [joinSp]⟩
  have h1 : joinSp x <+: joinSp (x ++ b) := by
    by_cases hb : b = []
    · subst hb; simp
    · rw [joinSp_append x b hx hb]; exact List.prefix_append _ _
  have h2 : joinSp (x ++ b) <:+ joinSp (a ++ (x ++ b)) := by
    by_cases ha : a = []
    · subst ha; simp
    · rw [joinSp_append a _ ha (by simp [hx])]
      exact (List.suffix_cons _ _).trans (List.suffix_append _ _)
  rw [List.append_assoc]
  exact h1.isInfix.trans h2.isInfix

theorem part_infix (ps : List Bytes) (p : Bytes) (h : p ∈ ps) : p <:+: joinSp ps := by
  obtain ⟨a, b, rfl⟩ := List.append_of_mem h
  have := joinSp_infix a [p] b
  simpa [joinSp] using this

theorem strip1_sublist (p : Bytes) : (strip1 p).Sublist p ∧ (strip1 p).filter (· ≠ LT) = p.filter (· ≠ LT) := by
  unfold strip1
  split
  · rename_i h
    cases p with
    | nil => simp at h
    | cons c p =>
      simp only [List.head?_cons, Option.some.injEq] at h
      subst h
      exact ⟨List.sublist_cons_self _ _, by simp⟩
  · exact ⟨List.Sublist.refl _, rfl⟩

theorem emailLoop_from (ps : List Bytes) (acc em : Bytes) (r : List Bytes)
    (h : emailLoop ps acc = .ok (em, r)) :
    ∃ e y, em = acc ++ y ∧ e <+: joinSp ps ∧ y.Sublist e ∧ y.filter (· ≠ LT) = e.filter (· ≠ LT) := by
  induction ps generalizing acc with
  | nil => simp [emailLoop] at h
  | cons p ps ih =>
    rw [emailLoop_cons] at h
    obtain ⟨hs1, hs2⟩ := strip1_sublist p
    have hpre : p <+: joinSp (p :: ps) := by
      cases ps with
      | nil => exact List.prefix_refl _
      | cons q qs => exact List.prefix_append _ _
    split at h
    · rename_i hg
      simp only [Res.ok.injEq, Prod.mk.injEq] at h
      obtain ⟨rfl, rfl⟩ := h
      have hne : strip1 p ≠ [] := by intro h0; rw [h0] at hg; simp at hg
      have hpne : p ≠ [] := by
        rintro rfl
        exact hne (by simpa using hs1)
      refine ⟨p.dropLast, (strip1 p).dropLast, rfl, (List.dropLast_prefix _).trans hpre, ?_, ?_⟩
      · unfold strip1
        split
        · cases p with
          | nil => exact absurd rfl hpne
          | cons c p =>
            have : p ≠ [] := by
              rintro rfl
              rename_i hc
              apply hne
              simp [strip1, hc]
            rw [List.tail_cons, List.dropLast_cons_of_ne_nil this]
            exact List.sublist_cons_self _ _
        · exact List.Sublist.refl _
      · unfold strip1
        split
        · rename_i hc
          cases p with
          | nil => exact absurd rfl hpne
          | cons c p =>
            have : p ≠ [] := by
              rintro rfl
              apply hne
              simp [strip1, hc]
            simp only [List.head?_cons, Option.some.injEq] at hc
            rw [List.tail_cons, List.dropLast_cons_of_ne_nil this, hc]
            simp
        · rfl
    · obtain ⟨e, y, h1, h2, h3, h4⟩ := ih _ h
      have hps : ps ≠ [] := by rintro rfl; simp [emailLoop] at h
      refine ⟨p ++ SP :: e, strip1 p ++ SP :: y, by simp [h1], ?_, ?_, ?_⟩
      · have : p :: ps = [p] ++ ps := rfl
        rw [this, joinSp_append [p] ps (by simp) hps]
        show p ++ SP :: e <+: p ++ SP :: joinSp ps
        obtain ⟨t, ht⟩ := h2
        exact ⟨t, by rw [← ht]; simp⟩
      · exact hs1.append (h3.cons_cons _)
      · rw [List.filter_append, List.filter_append, hs2, List.filter_cons, List.filter_cons, h4]

theorem person_from (B w v z : Bytes) (p : PersonInfo) (hw : SP ∉ w) (hB : v ++ z <:+: B)
    (h : parsePersonInfo (w ++ [SP] ++ z) = .ok p) : PersonFrom B v p := by
  have hsp : (splitSp (w ++ [SP] ++ z)).drop 1 = splitSp z := by
    have : w ++ [SP] ++ z = w ++ SP :: z := by simp
    rw [this, splitSp_append, splitSp_word w hw]
    rfl
  have hz := joinSp_splitSp z
  obtain ⟨n, r, r2, h1, h2, h3, h4⟩ := parse_inv _ p h
  rw [hsp] at h1
  obtain ⟨pre, q, rest, hps, hr, hq, hpre, hn⟩ := nameLoop_inv _ _ _ _ h1
  rw [if_pos rfl] at hn
  have hrz : joinSp r <:+: z := by
    have := joinSp_infix pre r []
    rw [List.append_nil, hr, ← hps, hz] at this
    rw [hr]; exact this
  obtain ⟨e, y, he1, he2, he3, he4⟩ := emailLoop_from _ _ _ _ h3
  simp only [List.nil_append] at he1
  subst he1
  have hr2 : ∀ x ∈ r2, x <:+: z := by
    have hparts : ∀ q ∈ r, SP ∉ q := by
      intro q hq'
      apply splitSp_parts z
      rw [hps, ← hr]; exact List.mem_append_right _ hq'
    obtain ⟨pre2, _, _, hr2, _⟩ := emailLoop_inv _ _ _ _ h3 hparts
    intro x hx
    exact (part_infix r x (by rw [hr2]; exact List.mem_append_right _ hx)).trans hrz
  have hnil : ([] : Bytes) <:+: z := ⟨[], z, rfl⟩
  refine ⟨z, hB, ?_, ?_, ?_, e, he2.isInfix.trans hrz, he3, he4⟩
  · cases hd : pre.dropWhile List.isEmpty with
    | nil =>
      rw [hd] at hn
      simp only [hn, spaced, List.flatMap_nil, List.length_nil, ne_eq, not_true_eq_false, if_false,
        Res.ok.injEq] at h2
      rw [← h2]; exact hnil
    | cons x xs =>
      rw [hd, spaced_eq _ (by simp)] at hn
      have hnl : n.length ≠ 0 := by rw [hn]; simp
      rw [if_pos hnl, hn] at h2
      simp only [chop, List.length_append, List.length_singleton, Nat.add_one_ne_zero, if_false,
        List.dropLast_concat, Res.ok.injEq] at h2
      rw [← h2, ← hd]
      have := joinSp_infix (pre.takeWhile List.isEmpty) (pre.dropWhile List.isEmpty) r
      rwa [List.takeWhile_append_dropWhile, hr, ← hps, hz] at this
  · rw [h4]
    unfold personRest
    split
    · exact hnil
    · exact hr2 _ (by simp)
    · exact hr2 _ (by simp)
  · rw [h4]
    unfold personRest
    split
    · exact hnil
    · exact hnil
    · exact hr2 _ (by simp)

theorem mergeMsgRun_from (B m : Bytes) (s : Stream) (hN : 2 ≤ s.bufsz) (hs : s.rest <:+ B)
    (hm : LinesOf B m) (r : Bytes × Bytes) (s' : Stream)
    (h : mergeMsgRun m s = .ok (r, s')) : LinesOf B r.1 ∧ r.2 <:+: B := by
  induction s using stream_induct generalizing m with
  | h s ih =>
    rw [mergeMsgRun_eq m s hN] at h
    cases hr : Stream.readLine s with
    | err e => rw [hr] at h; simp at h
    | panic => rw [hr] at h; simp at h
    | ok p =>
      obtain ⟨l, s1⟩ := p
      have hl := Stream.readLine_lt s s1 l hN hr
      have hin := readLine_infix hr hs
      rw [hr] at h
      simp only at h
      split at h
      · simp only [Res.ok.injEq, Prod.mk.injEq] at h
        rw [← h.1]; exact ⟨hm, hin⟩
      · exact ih s1 hl _ (by rw [hl.bufsz]; exact hN) (hl.suf.trans hs) (hm.snoc hin) h

theorem slice_eq {l p x : Bytes} {n : Nat} (hp : hasPrefix l p = true) (hn : n = p.length)
    (h : sliceFrom l n = .ok x) : l = p ++ x := by
  obtain ⟨y, rfl⟩ := (hasPrefix_iff _ _).1 hp
  rw [sliceFrom_append _ _ _ hn] at h
  simp only [Res.ok.injEq] at h
  rw [h]

theorem mergeTagRun_from (B : Bytes) (o : Tag) (s : Stream) (hN : 2 ≤ s.bufsz) (hs : s.rest <:+ B)
    (ho : MergeTagFrom B o) (r : Tag × Option Bytes) (s' : Stream)
    (h : mergeTagRun o s = .ok (r, s')) : MergeTagFrom B r.1 ∧ ∀ l, r.2 = some l → l <:+: B := by
  induction s using stream_induct generalizing o with
  | h s ih =>
    rw [mergeTagRun_eq o s hN] at h
    cases hr : Stream.readLine s with
    | err e =>
      rw [hr] at h
      cases e <;> simp at h
      rw [← h.1]; exact ⟨ho, by simp⟩
    | panic => rw [hr] at h; simp at h
    | ok p =>
      obtain ⟨l, s1⟩ := p
      have hl := Stream.readLine_lt s s1 l hN hr
      have hin := readLine_infix hr hs
      rw [hr] at h
      simp only at h
      have hN1 : 2 ≤ s1.bufsz := by rw [hl.bufsz]; exact hN
      have hs1 : s1.rest <:+ B := hl.suf.trans hs
      have key := fun o ho h => ih s1 hl o hN1 hs1 ho h
      split at h
      · rename_i hp
        obtain ⟨x, hx, h⟩ := Res.bind_eq_ok.1 h
        refine key _ ?_ h
        have := slice_eq hp rfl hx
        exact { ho with typ := Or.inr (by rw [this] at hin; exact hin) }
      split at h
      · rename_i hp
        obtain ⟨x, hx, h⟩ := Res.bind_eq_ok.1 h
        refine key _ ?_ h
        have := slice_eq hp rfl hx
        exact { ho with tag := Or.inr (by rw [this] at hin; exact hin) }
      split at h
      · rename_i hp
        obtain ⟨x, hx, h⟩ := Res.bind_eq_ok.1 h
        obtain ⟨y, hy, h⟩ := Res.bind_eq_ok.1 h
        refine key _ ?_ h
        obtain ⟨z, rfl⟩ := (hasPrefix_iff _ _).1 hp
        have hx' : x = b!"tagger " ++ z := by
          have := sliceFrom_append [SP] (b!"tagger " ++ z) 1 rfl
          have e : [SP] ++ (b!"tagger " ++ z) = b!" tagger " ++ z := rfl
          rw [e, hx] at this
          simpa using this
        subst hx'
        exact { ho with tagger := Or.inr (person_from B b!"tagger" _ z _ (by decide) hin hy) }
      split at h
      · obtain ⟨⟨⟨m, rest⟩, s2⟩, hm, h⟩ := Res.bind_eq_ok.1 h
        simp only [Res.ok.injEq, Prod.mk.injEq] at h
        have := mergeMsgRun_from B [] s1 hN1 hs1 LinesOf.nil _ _ hm
        rw [← h.1]
        exact ⟨{ ho with message := this.1 }, fun l hl => by
          simp only [Option.some.injEq] at hl; rw [← hl]; exact this.2⟩
      · exact key _ ho h

theorem ref_from {B w x : Bytes} {sha : Bytes} {cid : Cid} (hin : w ++ x <:+: B)
    (h1 : hexDecode x = .ok sha) (h2 : shaToCid sha = .ok cid) :
    IsGitLink (.cid cid) ∧ LinkFrom B w (.cid cid) := by
  obtain ⟨hlen, rfl⟩ := (shaToCid_eq_ok _ _).1 h2
  exact ⟨⟨sha, hlen, rfl⟩, Or.inr ⟨x, sha, ⟨(hexDecode_iff _ _).1 h1, hlen⟩, rfl, hin⟩⟩

theorem readMergeTag_from (B x sha : Bytes) (s : Stream) (hN : 2 ≤ s.bufsz) (hs : s.rest <:+ B)
    (hin : b!"mergetag object " ++ x <:+: B) (hx : hexDecode x = .ok sha)
    (r : Tag × Option Bytes) (s' : Stream) (h : readMergeTag sha s = .ok (r, s')) :
    MergeTagFrom B r.1 ∧ ∀ l, r.2 = some l → l <:+: B := by
  rw [readMergeTag_eq] at h
  obtain ⟨c, hc, h⟩ := Res.bind_eq_ok.1 h
  refine mergeTagRun_from B _ s hN hs ?_ r s' h
  exact { typ := Or.inl rfl, tag := Or.inl rfl, tagger := Or.inl rfl,
          object := ref_from hin hx hc, message := LinesOf.nil }

theorem sigRun_from (B m : Bytes) (s : Stream) (hN : 2 ≤ s.bufsz) (hs : s.rest <:+ B)
    (hm : LinesOf B m) (g : Bytes) (s' : Stream)
    (h : sigRun m s = .ok (g, s')) : LinesOf B g ∧ sigEnd <:+: B := by
  induction s using stream_induct generalizing m with
  | h s ih =>
    rw [sigRun_eq m s hN] at h
    cases hr : Stream.readLine s with
    | err e => rw [hr] at h; simp at h
    | panic => rw [hr] at h; simp at h
    | ok p =>
      obtain ⟨l, s1⟩ := p
      have hl := Stream.readLine_lt s s1 l hN hr
      have hin := readLine_infix hr hs
      rw [hr] at h
      simp only at h
      split at h
      · rename_i he
        simp only [Res.ok.injEq, Prod.mk.injEq] at h
        rw [← h.1]; exact ⟨hm, by rw [he] at hin; exact hin⟩
      · exact ih s1 hl _ (by rw [hl.bufsz]; exact hN) (hl.suf.trans hs) (hm.snoc hin) h

theorem decodeGpgSig_from (B : Bytes) (s : Stream) (hN : 2 ≤ s.bufsz) (hs : s.rest <:+ B)
    (g : Bytes) (s' : Stream) (h : decodeGpgSig s = .ok (g, s')) : LinesOf B g ∧ sigEnd <:+: B := by
  rw [decodeGpgSig_eq] at h
  obtain ⟨⟨l, s1⟩, h1, h⟩ := Res.bind_eq_ok.1 h
  obtain ⟨sg, h2, h⟩ := Res.bind_eq_ok.1 h
  have hlt := Stream.readLine_lt _ _ _ hN h1
  have hin := readLine_infix h1 hs
  refine sigRun_from B sg s1 (by rw [hlt.bufsz]; exact hN) (hlt.suf.trans hs) ?_ g s' h
  split at h2
  · split at h2
    · simp only [Res.ok.injEq] at h2
      rw [← h2]
      simpa using LinesOf.nil.snoc hin
    · simp at h2
  · rename_i hl
    simp only [ne_eq, Decidable.not_not] at hl
    simp only [Res.ok.injEq] at h2
    rw [← h2]
    have := (LinesOf.nil (B := B)).snoc hin
    rw [hl] at this
    exact this

theorem commitLineRun_from (B : Bytes) (c : Commit) (line : Bytes) (s : Stream) (hN : 2 ≤ s.bufsz)
    (hs : s.rest <:+ B) (hl : line <:+: B) (hc : CommitFrom B c) (r : Commit) (s' : Stream)
    (h : commitLineRun c line s = .ok (r, s')) : CommitFrom B r := by
  induction s using stream_induct generalizing c line with
  | h s ih =>
    rw [commitLineRun_eq c line s hN] at h
    split at h
    · rename_i hp
      obtain ⟨x, h1, h⟩ := Res.bind_eq_ok.1 h
      obtain ⟨y, h2, h⟩ := Res.bind_eq_ok.1 h
      obtain ⟨z, h3, h⟩ := Res.bind_eq_ok.1 h
      simp only [Res.ok.injEq, Prod.mk.injEq] at h
      rw [slice_eq hp rfl h1] at hl
      rw [← h.1]
      exact { hc with tree := (ref_from hl h2 h3).2 }
    split at h
    · rename_i hp
      obtain ⟨x, h1, h⟩ := Res.bind_eq_ok.1 h
      obtain ⟨y, h2, h⟩ := Res.bind_eq_ok.1 h
      obtain ⟨z, h3, h⟩ := Res.bind_eq_ok.1 h
      simp only [Res.ok.injEq, Prod.mk.injEq] at h
      rw [slice_eq hp rfl h1] at hl
      rw [← h.1]
      refine { hc with parents := ?_ }
      intro p hp
      rcases List.mem_append.1 hp with hp | hp
      · exact hc.parents p hp
      · rw [List.mem_singleton.1 hp]; exact ref_from hl h2 h3
    split at h
    · rename_i hp
      obtain ⟨z, rfl⟩ := (hasPrefix_iff _ _).1 hp
      obtain ⟨x, h1, h⟩ := Res.bind_eq_ok.1 h
      simp only [Res.ok.injEq, Prod.mk.injEq] at h
      rw [← h.1]
      refine { hc with author := ?_ }
      intro p hp
      simp only [Option.some.injEq] at hp
      rw [← hp]
      exact person_from B b!"author" _ z _ (by decide) hl h1
    split at h
    · rename_i hp
      obtain ⟨z, rfl⟩ := (hasPrefix_iff _ _).1 hp
      obtain ⟨x, h1, h⟩ := Res.bind_eq_ok.1 h
      simp only [Res.ok.injEq, Prod.mk.injEq] at h
      rw [← h.1]
      refine { hc with committer := ?_ }
      intro p hp
      simp only [Option.some.injEq] at hp
      rw [← hp]
      exact person_from B b!"committer" _ z _ (by decide) hl h1
    split at h
    · rename_i hp
      obtain ⟨x, h1, h⟩ := Res.bind_eq_ok.1 h
      simp only [Res.ok.injEq, Prod.mk.injEq] at h
      rw [slice_eq hp rfl h1] at hl
      rw [← h.1]
      refine { hc with encoding := ?_ }
      intro e he
      simp only [Option.some.injEq] at he
      rw [← he]; exact hl
    split at h
    · rename_i hp
      obtain ⟨x, h1, h⟩ := Res.bind_eq_ok.1 h
      obtain ⟨y, h2, h⟩ := Res.bind_eq_ok.1 h
      obtain ⟨⟨⟨mt, rest⟩, s1⟩, hm, h⟩ := Res.bind_eq_ok.1 h
      have hsub := readMergeTag_sub _ _ hN _ _ hm
      rw [slice_eq hp rfl h1] at hl
      have hf := readMergeTag_from B x y s hN hs hl h2 _ _ hm
      have hc' : CommitFrom B { c with mergetag := c.mergetag ++ [mt] } := by
        refine { hc with mergetag := ?_ }
        intro t ht
        rcases List.mem_append.1 ht with ht | ht
        · exact hc.mergetag t ht
        · rw [List.mem_singleton.1 ht]; exact hf.1
      simp only at h
      cases rest with
      | none =>
        simp only [Res.ok.injEq, Prod.mk.injEq] at h
        rw [← h.1]; exact hc'
      | some l =>
        have hlt := hsub.2 (by simp)
        exact ih s1 hlt _ _ (by rw [hlt.bufsz]; exact hN) (hlt.suf.trans hs) (hf.2 l rfl) hc' h
    split at h
    · rename_i hp
      obtain ⟨⟨sig, s1⟩, hg, h⟩ := Res.bind_eq_ok.1 h
      simp only [Res.ok.injEq, Prod.mk.injEq] at h
      obtain ⟨z, rfl⟩ := (hasPrefix_iff _ _).1 hp
      have := decodeGpgSig_from B s hN hs _ _ hg
      rw [← h.1]
      refine { hc with signature := ?_ }
      intro g hg'
      simp only [Option.some.injEq] at hg'
      rw [← hg']
      exact ⟨this.1, (List.prefix_append _ _).isInfix.trans hl, this.2⟩
    split at h
    · obtain ⟨⟨x, s1⟩, hg, h⟩ := Res.bind_eq_ok.1 h
      simp only [Res.ok.injEq, Prod.mk.injEq] at h
      rw [← h.1]
      obtain ⟨_, rfl, _⟩ := Stream.readAll_ok _ _ _ hg
      exact { hc with message := Or.inr hs }
    · rename_i h1 h2 h3 h4 h5 h6 h7 h8
      simp only [Res.ok.injEq, Prod.mk.injEq] at h
      rw [← h.1]
      refine { hc with other := ?_ }
      intro l' hl'
      rcases List.mem_append.1 hl' with hl' | hl'
      · exact hc.other l' hl'
      · rw [List.mem_singleton.1 hl']
        refine ⟨hl, by rintro rfl; simp at h8, ?_⟩
        intro w hw hpre
        have hpre := List.isPrefixOf_iff_prefix.2 hpre
        simp only [knownHeaders, List.mem_cons, List.not_mem_nil, or_false] at hw
        rcases hw with rfl | rfl | rfl | rfl | rfl | rfl | rfl <;> contradiction

theorem commitRun_from (B : Bytes) (c r : Commit) (s : Stream) (hN : 2 ≤ s.bufsz)
    (hs : s.rest <:+ B) (hc : CommitFrom B c) (h : commitRun c s = .ok r) : CommitFrom B r := by
  induction s using stream_induct generalizing c with
  | h s ih =>
    rw [commitRun_eq c s hN] at h
    cases hr : Stream.readLine s with
    | err e =>
      rw [hr] at h
      cases e <;> simp at h
      rw [← h]; exact hc
    | panic => rw [hr] at h; simp at h
    | ok p =>
      obtain ⟨l, s'⟩ := p
      have hl := Stream.readLine_lt s s' l hN hr
      have hN' : 2 ≤ s'.bufsz := by rw [hl.bufsz]; exact hN
      have hin := readLine_infix hr hs
      rw [hr] at h
      obtain ⟨⟨c', s''⟩, hc', h⟩ := Res.bind_eq_ok.1 h
      have hsub := commitLineRun_sub _ _ _ hN' _ _ hc'
      exact ih s'' (hsub.trans_lt hl) _ (by rw [hsub.bufsz]; exact hN')
        ((hsub.trans hl.toSub).suf.trans hs)
        (commitLineRun_from B c l s' hN' (hl.suf.trans hs) hin hc _ _ hc') h

/-! ### tags -/

theorem tagLine_from (B : Bytes) (t : Tag) (line : Bytes) (s : Stream)
    (hs : s.rest <:+ B) (hl : line <:+: B) (ht : PlainTagFrom B t) (r : Tag) (s' : Stream)
    (h : tagLine t line s = .ok (r, s')) : PlainTagFrom B r := by
  unfold tagLine at h
  split at h
  · rename_i hp
    obtain ⟨x, h1, h⟩ := Res.bind_eq_ok.1 h
    obtain ⟨y, h2, h⟩ := Res.bind_eq_ok.1 h
    obtain ⟨z, h3, h⟩ := Res.bind_eq_ok.1 h
    simp only [Res.ok.injEq, Prod.mk.injEq] at h
    rw [slice_eq hp rfl h1] at hl
    rw [← h.1]
    exact { ht with object := (ref_from hl h2 h3).2 }
  split at h
  · rename_i hp
    obtain ⟨x, h1, h⟩ := Res.bind_eq_ok.1 h
    simp only [Res.ok.injEq, Prod.mk.injEq] at h
    rw [slice_eq hp rfl h1] at hl
    rw [← h.1]
    exact { ht with tag := Or.inr hl }
  split at h
  · rename_i hp
    obtain ⟨z, rfl⟩ := (hasPrefix_iff _ _).1 hp
    obtain ⟨x, h1, h⟩ := Res.bind_eq_ok.1 h
    simp only [Res.ok.injEq, Prod.mk.injEq] at h
    rw [← h.1]
    exact { ht with tagger := Or.inr (person_from B b!"tagger" _ z _ (by decide) hl h1) }
  split at h
  · rename_i hp
    obtain ⟨x, h1, h⟩ := Res.bind_eq_ok.1 h
    simp only [Res.ok.injEq, Prod.mk.injEq] at h
    rw [slice_eq hp rfl h1] at hl
    rw [← h.1]
    exact { ht with typ := Or.inr hl }
  split at h
  · obtain ⟨⟨x, s1⟩, hg, h⟩ := Res.bind_eq_ok.1 h
    simp only [Res.ok.injEq, Prod.mk.injEq] at h
    rw [← h.1]
    obtain ⟨_, rfl, _⟩ := Stream.readAll_ok _ _ _ hg
    exact { ht with message := Or.inr hs }
  · simp only [Res.ok.injEq, Prod.mk.injEq] at h
    rw [← h.1]; exact ht

theorem tagRun_from (B : Bytes) (c r : Tag) (s : Stream) (hN : 2 ≤ s.bufsz)
    (hs : s.rest <:+ B) (hc : PlainTagFrom B c) (h : tagRun c s = .ok r) : PlainTagFrom B r := by
  induction s using stream_induct generalizing c with
  | h s ih =>
    rw [tagRun_eq c s hN] at h
    cases hr : Stream.readLine s with
    | err e =>
      rw [hr] at h
      cases e <;> simp at h
      rw [← h]; exact hc
    | panic => rw [hr] at h; simp at h
    | ok p =>
      obtain ⟨l, s'⟩ := p
      have hl := Stream.readLine_lt s s' l hN hr
      have hN' : 2 ≤ s'.bufsz := by rw [hl.bufsz]; exact hN
      have hin := readLine_infix hr hs
      rw [hr] at h
      obtain ⟨⟨c', s''⟩, hc', h⟩ := Res.bind_eq_ok.1 h
      have hsub := tagLine_sub _ _ _ _ _ hc'
      exact ih s'' (hsub.trans_lt hl) _ (by rw [hsub.bufsz]; exact hN')
        ((hsub.trans hl.toSub).suf.trans hs)
        (tagLine_from B c l s' (hl.suf.trans hs) hin hc _ _ hc') h

end Verif
