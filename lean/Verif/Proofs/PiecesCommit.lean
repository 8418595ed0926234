import Verif.Proofs.Pieces
import Verif.Props.Survive

/-!
# Header blocks of a commit whose lines have any length
-/

namespace Verif

open Spec Props

theorem linesTotal_append (xs ys : List Bytes) : linesTotal (xs ++ ys) = linesTotal xs + linesTotal ys := by
  simp [linesTotal]

theorem linesTotal_cons (x : Bytes) (ys : List Bytes) : linesTotal (x :: ys) = x.length + linesTotal ys := by
  simp [linesTotal]

theorem trimCR_length' (l : Bytes) : l.length ≤ (trimCR l).length + 1 := by
  unfold trimCR
  split
  · simp; omega
  · omega

theorem lblocks_nonempty {L : List Bytes} {bs : List Block} (h : LBlocks ([] :: L) bs) : False := by
  generalize hX : [] :: L = X at h
  cases h with
  | done => simp at hX
  | line l L' bs' hne h1 h2 h => exact hne (List.cons.inj hX).1.symm
  | sig l ls L' bs' h1 =>
    rw [← (List.cons.inj hX).1] at h1
    simp at h1
  | merge x => exact absurd (List.cons.inj hX).1 (by simp)
  | cut x => exact absurd (List.cons.inj hX).1 (by simp)

/-! ## Signatures -/

theorem lblocks_unsigned {L : List Bytes} {bs : List Block} (h : LBlocks L bs) (hm : mergeTags bs = [])
    (hg : ∀ l ∈ L, ¬ b!"gpgsig " <+: l) : signatures bs = [] := by
  induction h with
  | done => rfl
  | line l L bs hne h1 h2 h ih => exact ih hm fun x hx => hg x (by simp [hx])
  | sig l ls L bs h1 => exact absurd h1 (hg l (by simp))
  | merge => simp [mergeTags] at hm
  | cut => simp [mergeTags] at hm

/-- Where the first end of a signature is. -/
theorem split_end (E : Bytes) {A B T T' : List Bytes} (h1 : ∀ y ∈ A, y ≠ E) (h : A ++ E :: T = B ++ E :: T') :
    (A = B ∧ T = T') ∨ ∃ C, B = A ++ E :: C ∧ T = C ++ E :: T' := by
  induction A generalizing B with
  | nil =>
    cases B with
    | nil => exact .inl ⟨rfl, by simpa using h⟩
    | cons b B =>
      simp only [List.nil_append, List.cons_append, List.cons.injEq] at h
      exact .inr ⟨B, by rw [h.1]; rfl, h.2⟩
  | cons a A ih =>
    cases B with
    | nil =>
      simp only [List.nil_append, List.cons_append, List.cons.injEq] at h
      exact absurd h.1 (h1 a (by simp))
    | cons b B =>
      simp only [List.cons_append, List.cons.injEq] at h
      rcases ih (fun y hy => h1 y (by simp [hy])) h.2 with ⟨rfl, rfl⟩ | ⟨C, rfl, rfl⟩
      · exact .inl ⟨by rw [h.1], rfl⟩
      · exact .inr ⟨C, by rw [h.1]; rfl, rfl⟩

theorem lblocks_sigs_small {R : List Bytes} {bs : List Block} (h : LBlocks R bs) :
    ∀ B O : List Bytes, R = B ++ sigEnd :: O → mergeTags bs = [] → (∀ l ∈ O, ¬ b!"gpgsig " <+: l) →
      ∀ s ∈ signatures bs, linesTotal s ≤ linesTotal B := by
  induction h with
  | done => intro B O h; simp at h
  | line l L bs hne h1 h2 h ih =>
    intro B O hR hm hg s hs
    cases B with
    | nil =>
      simp only [List.nil_append, List.cons.injEq] at hR
      obtain ⟨_, rfl⟩ := hR
      have : signatures bs = [] := lblocks_unsigned h hm hg
      exact absurd (show s ∈ signatures bs from hs) (by rw [this]; simp)
    | cons b B =>
      simp only [List.cons_append, List.cons.injEq] at hR
      have := ih B O hR.2 hm hg s hs
      rw [linesTotal_cons]
      omega
  | sig l ls L bs h1 hne h ih =>
    intro B O hR hm hg s hs
    cases B with
    | nil =>
      simp only [List.nil_append, List.cons.injEq] at hR
      rw [hR.1] at h1
      exact absurd h1 (by decide)
    | cons b B =>
      simp only [List.cons_append, List.cons.injEq] at hR
      rw [linesTotal_cons]
      rcases split_end sigEnd hne hR.2 with ⟨rfl, rfl⟩ | ⟨C, rfl, rfl⟩
      · have : signatures bs = [] := lblocks_unsigned h hm hg
        rcases List.mem_cons.1 (show s ∈ ls :: signatures bs from hs) with rfl | hs
        · omega
        · rw [this] at hs; simp at hs
      · rw [linesTotal_append, linesTotal_cons]
        rcases List.mem_cons.1 (show s ∈ ls :: signatures bs from hs) with rfl | hs
        · omega
        · have := ih C O rfl hm hg s hs
          omega
  | merge => intro _ _ _ hm; simp [mergeTags] at hm
  | cut => intro _ _ _ hm; simp [mergeTags] at hm

/-- The last signature is the only one if it is not smaller than what was written. -/
theorem lblocks_signed_total {O gl' gl : List Bytes} {bs : List Block}
    (h : LBlocks (sigBegin :: (gl' ++ sigEnd :: O)) bs) (hok : ∀ B ∈ bs, BlockOk B) (hm : mergeTags bs = [])
    (hg : (signatures bs).getLast? = some gl) (ht : linesTotal gl' ≤ linesTotal gl)
    (hO : ∀ l ∈ O, ¬ b!"gpgsig " <+: l) : gl' = gl ∧ signatures bs = [gl] ∧ plainLines bs = O := by
  obtain ⟨ls, L', bs', hL, rfl, h'⟩ := lblocks_sig h (by decide)
  have hls : ∀ y ∈ ls, y ≠ sigEnd := fun y hy => (hok _ (List.mem_cons_self ..) y hy).2
  have e2 : signatures (.sig ls :: bs') = ls :: signatures bs' := rfl
  rw [e2] at hg
  rcases split_end sigEnd hls hL.symm with ⟨rfl, rfl⟩ | ⟨C, rfl, rfl⟩
  · have hs : signatures bs' = [] := lblocks_unsigned h' hm hO
    rw [hs] at hg
    simp only [List.getLast?_singleton, Option.some.injEq] at hg
    subst hg
    exact ⟨rfl, by rw [e2, hs], (show plainLines bs' = _ from lblocks_plain h' hm hs)⟩
  · exfalso
    rw [linesTotal_append, linesTotal_cons] at ht
    have he : 0 < sigEnd.length := by decide
    rcases List.mem_cons.1 (List.mem_of_getLast? hg) with rfl | hmem
    · omega
    · have := lblocks_sigs_small h' C O rfl hm hO gl hmem
      omega

/-! ## Merge tags -/

theorem msg_cuts {N : Nat} (hN : 3 ≤ N) {R L : List Bytes} {bs : List Block} (hL : LBlocks L bs) :
    ∀ ms : List Bytes, (∀ l ∈ ms, l.head? = some SP ∧ l.length ≤ N) → ms.flatMap (cuts N) ++ R = ms ++ L →
      (∀ l ∈ ms, l.length < N ∧ trimCR l = l) ∧ R = L := by
  intro ms
  induction ms with
  | nil => intro _ h; exact ⟨by simp, by simpa using h⟩
  | cons l ms ih =>
    intro hms h
    by_cases hs : l.length < N
    · rw [List.flatMap_cons, cuts_short hs] at h
      simp only [List.cons_append, List.nil_append, List.cons.injEq] at h
      obtain ⟨h1, h2⟩ := ih (fun l hl => hms l (by simp [hl])) h.2
      refine ⟨fun x hx => ?_, h2⟩
      rcases List.mem_cons.1 hx with rfl | hx
      · exact ⟨hs, h.1⟩
      · exact h1 x hx
    · exfalso
      have hl := (hms l (by simp)).2
      obtain ⟨f, gs, hc, _, _, _, _, _, c2, _⟩ := cuts_shape hN (l := l) (by omega)
      rw [List.flatMap_cons, hc, c2 (by omega)] at h
      simp only [List.cons_append, List.nil_append, List.cons.injEq] at h
      cases ms with
      | nil =>
        simp only [List.nil_append] at h
        rw [← h.2] at hL
        exact lblocks_nonempty hL
      | cons m ms =>
        simp only [List.cons_append, List.cons.injEq] at h
        have := (hms m (by simp)).1
        rw [← h.2.1] at this
        simp at this

/-- One merge tag. -/
theorem lblocks_mergetag_cuts {N : Nat} (hN : 4096 ≤ N) {t : Tag} {R : List Bytes} {bs : List Block} {x : List Tag}
    (h : LBlocks ((mergeLines t).flatMap (cuts N) ++ R) bs) (hok : ∀ B ∈ bs, BlockOk B) (hle : ∀ B ∈ bs, BlockLe N B)
    (hm : Pairs MergeMeans (mergeTags bs) (t :: x)) (hobj : IsGitLink t.object) :
    ∃ bs', LBlocks R bs' ∧ (∀ B ∈ bs', BlockOk B) ∧ (∀ B ∈ bs', BlockLe N B) ∧ Pairs MergeMeans (mergeTags bs') x ∧
      plainLines bs = plainLines bs' ∧ signatures bs = signatures bs' ∧
      (∀ l ∈ [b!" type " ++ t.typ, b!" tag " ++ t.tag, b!" tagger " ++ personText t.tagger],
        l.length ≤ N ∧ l.getLast? ≠ some CR) ∧
      (∀ l ∈ linesOf t.message, l.length < N ∧ trimCR l = l) ∧ PersonOk t.tagger ∧
      ∀ y, R.head? = some y → y.head? ≠ some SP := by
  -- the lines are not much longer than the buffer
  obtain ⟨B0, hB0, hmm⟩ : ∃ x0, x0 ∈ mergeTags bs ∧ MergeMeans x0 t := by
    obtain ⟨x0, h1, h2⟩ := pairs_mem hm t (by simp)
    exact ⟨x0, h1, h2⟩
  have hle0 := (hle _ (mem_mergeTags hB0)).1
  have b1 : (b!" type " ++ t.typ).length ≤ N := by
    rw [hmm.typ]
    rcases getLast?_getD_mem (behind b!" type " B0.2.1) [] with h | h
    · rw [h]; simp; omega
    · exact hle0 _ (behind_mem h)
  have b2 : (b!" tag " ++ t.tag).length ≤ N := by
    rw [hmm.tag]
    rcases getLast?_getD_mem (behind b!" tag " B0.2.1) [] with h | h
    · rw [h]; simp; omega
    · exact hle0 _ (behind_mem h)
  have b3 : (b!" tagger " ++ personText t.tagger).length ≤ N + 1 ∧
      SP ∉ t.tagger.date ∧ SP ∉ t.tagger.timezone := by
    rcases lastValue_cases hmm.tagger with h | ⟨y, hy, h⟩
    · rw [h]
      refine ⟨?_, by simp, by simp⟩
      have : (b!" tagger " ++ personText ⟨[], [], [], []⟩).length = 11 := by decide
      omega
    · obtain ⟨y, hy', rfl⟩ := List.mem_map.1 hy
      have h2 := hle0 _ (linesWith_mem hy')
      obtain ⟨z, rfl⟩ := List.isPrefixOf_iff_prefix.1 (List.mem_filter.1 hy').2
      have h1 := (personRead_length (w := b!"tagger") (y := z) (by decide) (by simpa using h)).1
      simp only [List.length_append] at h2 ⊢
      exact ⟨by omega, personRead_words h⟩
  have b4 : (b!"mergetag object " ++ hex (digest t.object)).length < N ∧
      trimCR (b!"mergetag object " ++ hex (digest t.object)) = b!"mergetag object " ++ hex (digest t.object) := by
    have := hex_line hN b!"mergetag object " t.object (by decide) (by decide) (by decide) (.inl hobj)
    exact ⟨this.short, trimCR_of this.noCR⟩
  obtain ⟨f1, gs1, e1, p1, q1, r1, s1, t1, u1, v1, w1, x1⟩ := cuts_shape (N := N) (by omega)
    (l := b!" type " ++ t.typ) (by omega)
  obtain ⟨f2, gs2, e2, p2, q2, r2, s2, t2, u2, v2, w2, x2⟩ := cuts_shape (N := N) (by omega)
    (l := b!" tag " ++ t.tag) (by omega)
  obtain ⟨f3, gs3, e3, p3, q3, r3, s3, t3, u3, v3, w3, x3⟩ := cuts_shape (N := N) (by omega)
    (l := b!" tagger " ++ personText t.tagger) b3.1
  have g1 : ∀ g ∈ gs1, g = [] := by
    by_cases hs : (b!" type " ++ t.typ).length < N
    · rw [(t1 hs).2]; simp
    · rw [u1 (by omega)]; simp
  have g2 : ∀ g ∈ gs2, g = [] := by
    by_cases hs : (b!" tag " ++ t.tag).length < N
    · rw [(t2 hs).2]; simp
    · rw [u2 (by omega)]; simp
  have hlast : (b!" tagger " ++ personText t.tagger).getLast? ≠ some SP := by
    have h1 := personText_last b3.2.1 b3.2.2
    have h2 : personText t.tagger ≠ [] := by simp [personText]
    rw [List.getLast?_append]
    cases h3 : (personText t.tagger).getLast? with
    | none => exact absurd (List.getLast?_eq_none_iff.1 h3) h2
    | some b => rw [h3] at h1; simpa using h1
  have g3 : ∀ g ∈ gs3, g ≠ b!" " ∧ g.length ≤ 2 := fun g hg => ⟨(w3 g hg).2 hlast, (w3 g hg).1⟩
  have z1 : b!" type " <+: f1 := x1 _ ⟨_, rfl⟩ (by decide) (by simp; omega)
  have z2 : b!" tag " <+: f2 := x2 _ ⟨_, rfl⟩ (by decide) (by simp; omega)
  have z3 : b!" tagger " <+: f3 := x3 _ ⟨_, rfl⟩ (by decide) (by simp; omega)
  have e : (mergeLines t).flatMap (cuts N) ++ R = (b!"mergetag object " ++ hex (digest t.object)) ::
      ((f1 :: gs1 ++ (f2 :: gs2 ++ (f3 :: gs3))) ++ b!" " :: ((linesOf t.message).flatMap (cuts N) ++ R)) := by
    have k5 : cuts N b!" " = [b!" "] := by
      rw [cuts_short (by simp; omega)]; rfl
    simp only [mergeLines, List.flatMap_append, List.flatMap_cons, List.flatMap_nil, e1, e2, e3, k5,
      cuts_short b4.1, b4.2]
    simp
  rw [e] at h
  obtain ⟨ms, L, bs', hM, rfl, hL, h'⟩ := lblocks_merge h (by
    intro y hy
    simp only [List.mem_append, List.mem_cons] at hy
    rcases hy with (rfl | hy) | (rfl | hy) | rfl | hy
    · rintro rfl; revert z1; decide
    · rw [g1 y hy]; simp
    · rintro rfl; revert z2; decide
    · rw [g2 y hy]; simp
    · rintro rfl; revert z3; decide
    · exact (g3 y hy).1)
  obtain ⟨hmm, hrest⟩ : MergeMeans (hex (digest t.object), (f1 :: gs1 ++ (f2 :: gs2 ++ (f3 :: gs3))), some ms) t ∧
      Pairs MergeMeans (mergeTags bs') x := hm
  obtain ⟨_, m2, m3, m4, m5⟩ := hmm
  simp only [Option.getD_some] at m2 m3 m4 m5
  have hms := (hok _ (List.mem_cons_self ..)).2
  simp only [Option.getD_some] at hms
  have hmsle := (hle _ (List.mem_cons_self ..)).2
  simp only [Option.getD_some] at hmsle
  have hms2 : linesOf t.message = ms := by rw [m5, linesOf_unlines ms (fun l hl => (hms l hl).1)]
  rw [hms2] at hM
  obtain ⟨hM1, rfl⟩ := msg_cuts (by omega) h' ms (fun l hl => ⟨(hms l hl).2, hmsle l hl⟩) hM
  -- the words at the beginning of the pieces
  have none_of : ∀ (w : Bytes) (gs : List Bytes), 3 ≤ w.length → (∀ g ∈ gs, g.length ≤ 2) → linesWith w gs = [] := by
    intro w gs hw hg
    refine List.filter_eq_nil_iff.2 fun g hg' hp => ?_
    have h1 := (List.isPrefixOf_iff_prefix.1 hp).length_le
    have h2 := hg g hg'
    omega
  have one : ∀ (w f : Bytes), linesWith w [f] = if w.isPrefixOf f then [f] else [] := by
    intro w f
    by_cases hp : w.isPrefixOf f <;> simp [linesWith, hp]
  have split : ∀ w : Bytes, 3 ≤ w.length → linesWith w (f1 :: gs1 ++ (f2 :: gs2 ++ (f3 :: gs3))) =
      linesWith w [f1] ++ (linesWith w [f2] ++ linesWith w [f3]) := by
    intro w hw
    have app : ∀ xs ys : List Bytes, linesWith w (xs ++ ys) = linesWith w xs ++ linesWith w ys := by
      intro xs ys; simp [linesWith]
    have con : ∀ (f : Bytes) (ys : List Bytes), linesWith w (f :: ys) = linesWith w [f] ++ linesWith w ys := by
      intro f ys; exact app [f] ys
    rw [app, app, con f1, con f2, con f3, none_of w gs1 hw fun g hg => by rw [g1 g hg]; simp,
      none_of w gs2 hw fun g hg => by rw [g2 g hg]; simp, none_of w gs3 hw fun g hg => (g3 g hg).2]
    simp
  obtain ⟨y1, rfl⟩ := z1
  obtain ⟨y2, rfl⟩ := z2
  obtain ⟨y3, rfl⟩ := z3
  have n2 : t.typ = y1 := by
    rw [behind, split _ (by decide)] at m2
    simpa [linesWith] using m2
  have n3 : t.tag = y2 := by
    rw [behind, split _ (by decide)] at m3
    simpa [linesWith] using m3
  have n4 : PersonRead (b!"tagger " ++ y3) t.tagger := by
    rw [split _ (by decide)] at m4
    have : ((linesWith b!" tagger " [b!" type " ++ y1] ++ (linesWith b!" tagger " [b!" tag " ++ y2] ++
        linesWith b!" tagger " [b!" tagger " ++ y3])).map (·.drop 1)) = [b!"tagger " ++ y3] := by
      simp [linesWith]
    rw [this] at m4
    exact lastValue_one m4
  have m6 : y3 = personText t.tagger := by
    have h1 := personRead_whole (w := b!"tagger") (f := b!"tagger " ++ y3) (p := t.tagger) (by decide) (by
      have h2 := (List.prefix_append_right_inj b!" tagger ").1 p3
      exact (List.prefix_append_right_inj b!"tagger ").2 h2) ?_ n4
    · simpa using h1
    · by_cases hs : (b!" tagger " ++ personText t.tagger).length < N
      · have h2 := (t3 hs).1
        have h3 : y3 ≠ [] := by
          rintro rfl
          have h4 := trimCR_append b!" tagger " (personText t.tagger) (by decide)
          rw [← h2] at h4
          have h5 : trimCR (personText t.tagger) = [] := by simpa using h4.symm
          have h6 := trimCR_length' (personText t.tagger)
          rw [h5] at h6
          simp [personText] at h6
          omega
        have := List.length_pos_iff.2 h3
        simp only [List.length_append]
        simp
        omega
      · simp only [List.length_append] at s3 hs ⊢
        simp at s3 hs ⊢
        omega
  clear m2 m3 split
  subst n2 n3 m6
  have c1 := r1 rfl
  have c2 := r2 rfl
  have c3 := r3 rfl
  obtain ⟨_, hpok⟩ := person_exact (w := b!"tagger") (p := t.tagger) (by decide) (by decide) (by
    have h1 : (b!"tagger " ++ personText t.tagger).getLast? ≠ some CR := by
      intro hc
      apply c3
      have : b!" tagger " ++ personText t.tagger = [SP] ++ (b!"tagger " ++ personText t.tagger) := by simp
      rw [this, List.getLast?_append, hc]
      rfl
    have e : b!"tagger" ++ SP :: personText t.tagger = b!"tagger " ++ personText t.tagger := by simp
    rw [e, trimCR_of h1]
    exact n4)
  refine ⟨bs', h', fun B hB => hok B (by simp [hB]), fun B hB => hle B (by simp [hB]), hrest, rfl, rfl, ?_, ?_, hpok, hL⟩
  · intro l hl
    simp only [List.mem_cons, List.not_mem_nil, or_false] at hl
    rcases hl with rfl | rfl | rfl
    · exact ⟨q1, c1⟩
    · exact ⟨q2, c2⟩
    · exact ⟨q3, c3⟩
  · rw [hms2]
    exact hM1

/-- All merge tags. -/
theorem lblocks_mergetags_cuts {N : Nat} (hN : 4096 ≤ N) {ts : List Tag} {R : List Bytes} {bs : List Block}
    (h : LBlocks ((ts.flatMap mergeLines).flatMap (cuts N) ++ R) bs) (hok : ∀ B ∈ bs, BlockOk B)
    (hle : ∀ B ∈ bs, BlockLe N B) (hm : Pairs MergeMeans (mergeTags bs) ts)
    (hobj : ∀ t ∈ ts, IsGitLink t.object) :
    ∃ bs', LBlocks R bs' ∧ (∀ B ∈ bs', BlockOk B) ∧ (∀ B ∈ bs', BlockLe N B) ∧ mergeTags bs' = [] ∧
      plainLines bs = plainLines bs' ∧ signatures bs = signatures bs' ∧
      (∀ t ∈ ts, (∀ l ∈ [b!" type " ++ t.typ, b!" tag " ++ t.tag, b!" tagger " ++ personText t.tagger],
        l.length ≤ N ∧ l.getLast? ≠ some CR) ∧
        (∀ l ∈ linesOf t.message, l.length < N ∧ trimCR l = l) ∧ PersonOk t.tagger) ∧
      (ts ≠ [] → ∀ y, R.head? = some y → y.head? ≠ some SP) := by
  induction ts generalizing bs with
  | nil =>
    refine ⟨bs, h, hok, hle, ?_, rfl, rfl, by simp, by simp⟩
    have := pairs_length hm
    exact List.eq_nil_of_length_eq_zero this
  | cons t ts ih =>
    rw [List.flatMap_cons, List.flatMap_append, List.append_assoc] at h
    obtain ⟨bs1, h1, hok1, hle1, hm1, hp1, hs1, hc1, hd1, hper, hh1⟩ :=
      lblocks_mergetag_cuts hN h hok hle hm (hobj t (by simp))
    obtain ⟨bs2, h2, hok2, hle2, hm2, hp2, hs2, hc2, hh2⟩ := ih h1 hok1 hle1 hm1
      (fun t ht' => hobj t (by simp [ht']))
    refine ⟨bs2, h2, hok2, hle2, hm2, hp1.trans hp2, hs1.trans hs2, ?_, ?_⟩
    · intro t' ht'
      rcases List.mem_cons.1 ht' with rfl | ht'
      · exact ⟨hc1, hd1, hper⟩
      · exact hc2 t' ht'
    · intro _
      cases ts with
      | nil => exact hh1
      | cons t' ts => exact hh2 (by simp)

/-- Every piece of a line in front of the merge tags begins with its word or is short. -/
theorem front_piece {N : Nat} (hN : 4096 ≤ N) {c : Commit} {a k : PersonInfo}
    (hb : ∀ l ∈ frontLines c a k, l.length ≤ N + 1) {l : Bytes} (h : l ∈ (frontLines c a k).flatMap (cuts N)) :
    (∃ w ∈ frontWords, w <+: l) ∨ l.length ≤ 2 := by
  obtain ⟨x, hx, hl⟩ := List.mem_flatMap.1 h
  obtain ⟨f, gs, e, _, _, _, _, _, _, _, h4, h5⟩ := cuts_shape (N := N) (by omega) (hb x hx)
  rw [e] at hl
  rcases List.mem_cons.1 hl with rfl | hl
  · obtain ⟨w, hw, hp⟩ := front_word (List.mem_map_of_mem (f := trimCR) hx)
    refine .inl ⟨w, hw, h5 w (hp.trans (trimCR_prefix x)) ?_ ?_⟩
    · simp only [frontWords, List.mem_cons, List.not_mem_nil, or_false] at hw
      rcases hw with rfl | rfl | rfl | rfl | rfl <;> decide
    · have : w.length ≤ 10 := by
        simp only [frontWords, List.mem_cons, List.not_mem_nil, or_false] at hw
        rcases hw with rfl | rfl | rfl | rfl | rfl <;> decide
      omega
  · exact .inr (h4 l hl).1

theorem known_long {w : Bytes} (h : w ∈ knownHeaders) : 3 ≤ w.length := by
  have : ∀ w ∈ knownHeaders, 3 ≤ w.length := by decide
  exact this w h

end Verif
