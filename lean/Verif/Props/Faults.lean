import Verif.Proofs.Faults
import Verif.Props.Robust
import Verif.Props.Chunks

/-!
# Why an object is refused: C97
-/

namespace Verif.Props

open Verif Spec

/-! ## C97 Every error has exactly one meaning -/

theorem first_of {c : UInt8} {b : Bytes} (h : c ∈ b) : ∃ x r, b = x ++ c :: r ∧ c ∉ x := by
  induction b with
  | nil => cases h
  | cons a b ih =>
    by_cases ha : c = a
    · exact ⟨[], b, by rw [ha]; rfl, by simp⟩
    · have : c ∈ b := by
        rcases List.mem_cons.1 h with h | h
        · exact absurd h ha
        · exact h
      obtain ⟨x, r, rfl, hx⟩ := ih this
      exact ⟨a :: x, r, rfl, by simp [ha, hx]⟩

theorem parse_word {w : Bytes} (hw : SP ∉ w) (hn : w ∉ [b!"tree", b!"commit", b!"blob", b!"tag"]) (r : Bytes) (e : Err)
    (N : Nat) : parseObject (σ := Stream) ⟨w ++ SP :: r, e, N⟩ = .err .badType := by
  simp only [List.mem_cons, List.not_mem_nil, or_false, not_or] at hn
  obtain ⟨h1, h2, h3, h4⟩ := hn
  unfold parseObject
  rw [readType_word _ _ _ _ hw]
  simp [h1, h2, h3, h4]

theorem parse_noSize {w : Bytes} (hw : w ∈ [b!"tree", b!"commit", b!"blob", b!"tag"]) (r : Bytes) (h : NUL ∉ r)
    (N : Nat) : parseObject (σ := Stream) ⟨w ++ SP :: r, .eof, N⟩ = .err .eof := by
  have hn := (readNum_err r N .eof).2 (.inl ⟨rfl, h⟩)
  simp only [List.mem_cons, List.not_mem_nil, or_false] at hw
  rcases hw with rfl | rfl | rfl | rfl
  · rw [parse_tree, decodeTree_eq, hn]; rfl
  · rw [parse_commit, decodeCommit_eq, hn]; rfl
  · rw [parse_blob]; unfold decodeBlob; rw [hn]; rfl
  · rw [parse_tag, decodeTag_eq, (Stream.readString_err NUL ⟨r, .eof, N⟩ .eof).2 ⟨h, rfl⟩]; rfl

theorem parse_badSize {w : Bytes} (hw : w ∈ [b!"tree", b!"commit", b!"blob"]) (d r : Bytes) (hd : NUL ∉ d)
    (h : ∀ z, ¬ SizeField d z) (N : Nat) :
    parseObject (σ := Stream) ⟨w ++ SP :: (d ++ NUL :: r), .eof, N⟩ = .err .atoi := by
  have hn := (readNum_err (d ++ NUL :: r) N .atoi).2 (.inr ⟨rfl, d, r, rfl, hd, h⟩)
  simp only [List.mem_cons, List.not_mem_nil, or_false] at hw
  rcases hw with rfl | rfl | rfl
  · rw [parse_tree, decodeTree_eq, hn]; rfl
  · rw [parse_commit, decodeCommit_eq, hn]; rfl
  · rw [parse_blob]; unfold decodeBlob; rw [hn]; rfl

/-- A blob whose size field is all right. -/
theorem parse_sized {d : Bytes} {z : Int} (hd : SizeField d z) (r : Bytes) (N : Nat) (e : Err) :
    parseObject (σ := Stream) ⟨b!"blob " ++ d ++ NUL :: r, .eof, N⟩ = .err e ↔
      (z < 0 ∧ e = .negSize) ∨ (0 < z ∧ r = [] ∧ e = .eof) ∨
      (r ≠ [] ∧ (r.length : Int) < z ∧ e = .unexpectedEof) := by
  have : b!"blob " ++ d ++ NUL :: r = b!"blob" ++ SP :: (d ++ NUL :: r) := by simp
  rw [this, parse_blob]
  unfold decodeBlob
  rw [readNum_signed d _ .eof N _ hd.2.1 hd.2.2.1 hd.2.2.2]
  simp only [Res.bind_ok]
  by_cases hz : z < 0
  · rw [if_pos hz]
    have hz' : ¬ 0 < z := by omega
    have hz'' : ¬ (r.length : Int) < z := by omega
    simp [hz, hz', hz'', eq_comm]
  · rw [if_neg hz]
    simp only [reader_readLimited, Stream.readLimited, if_true]
    obtain ⟨n, rfl⟩ : ∃ n : Nat, z = n := ⟨z.toNat, by omega⟩
    simp only [Int.toNat_natCast]
    by_cases hl : n ≤ r.length
    · rw [if_pos hl]
      have h1 : ¬ (r.length : Int) < n := by omega
      have h2 : ¬ (0 < (n : Int) ∧ r = []) := by rintro ⟨h, rfl⟩; simp at hl; omega
      have h3 : ¬ ((n : Int) < 0) := by omega
      simp only [Res.bind_ok, List.length_take, Nat.min_eq_left hl, ne_eq, not_true_eq_false, if_false]
      constructor
      · intro h; cases h
      · rintro (⟨h, _⟩ | ⟨h, h', _⟩ | ⟨_, h, _⟩)
        · exact absurd h h3
        · exact absurd ⟨h, h'⟩ h2
        · exact absurd h h1
    · rw [if_neg hl]
      simp only [Res.bind_ok]
      rw [if_pos (by omega)]
      by_cases hr : r = []
      · subst hr
        simp only [List.length_nil, if_true, Res.bind_err, Res.err.injEq]
        constructor
        · rintro rfl
          exact .inr (.inl ⟨by simp at hl; omega, by trivial, by trivial⟩)
        · rintro (⟨h, _⟩ | ⟨_, _, h⟩ | ⟨h, _⟩)
          · omega
          · exact h.symm
          · exact absurd rfl h
      · have : r.length ≠ 0 := by simpa using hr
        rw [if_neg this]
        simp only [Res.bind_err, Res.err.injEq]
        constructor
        · rintro rfl
          exact .inr (.inr ⟨hr, by omega, rfl⟩)
        · rintro (⟨h, _⟩ | ⟨_, h, _⟩ | ⟨_, _, h⟩)
          · omega
          · exact absurd h hr
          · exact h.symm

theorem bind_ok_err {α β : Type} {x : Res α} {f : α → β} {e : Err} :
    (x >>= fun a => Res.ok (f a)) = .err e ↔ x = .err e := by
  cases x <;> simp

/-- An input is refused with an error exactly if something is wrong with it that
is reported with this error. -/
theorem refused_because (b : Bytes) (N : Nat) (hN : 2 ≤ N) (e : Err) :
    parseObject (σ := Stream) ⟨b, .eof, N⟩ = .err e ↔ Faulty N b e := by
  constructor
  · intro h
    by_cases hsp : SP ∈ b
    · obtain ⟨w, r, rfl, hw⟩ := first_of hsp
      by_cases hn : w ∈ [b!"tree", b!"commit", b!"blob", b!"tag"]
      · by_cases hnul : NUL ∈ r
        · obtain ⟨d, r, rfl, hd⟩ := first_of hnul
          by_cases htag : w = b!"tag"
          · subst htag
            have := parse_tag_nul d r .eof N hd
            rw [show b!"tag " ++ d ++ NUL :: r = b!"tag" ++ SP :: (d ++ NUL :: r) by simp, h] at this
            obtain ⟨ls, t, h1, h2⟩ := (tagRun_err _ _ _ (by exact hN) rfl).1 (bind_ok_err.1 this.symm)
            have := Faulty.tag d r ls t e hd h1 ((tagMeans_iff _ _ _).1 h2)
            simpa using this
          · have hn' : w ∈ [b!"tree", b!"commit", b!"blob"] := by
              simp only [List.mem_cons, List.not_mem_nil, or_false] at hn ⊢
              rcases hn with h | h | h | h
              · exact .inl h
              · exact .inr (.inl h)
              · exact .inr (.inr h)
              · exact absurd h htag
            by_cases hz : ∃ z, SizeField d z
            · obtain ⟨z, hz⟩ := hz
              have hnum := readNum_signed d r .eof N z hz.2.1 hz.2.2.1 hz.2.2.2
              simp only [List.mem_cons, List.not_mem_nil, or_false] at hn'
              rcases hn' with rfl | rfl | rfl
              · rw [parse_tree, decodeTree_eq, hnum, bind_ok_err] at h
                obtain ⟨es, tail, h1, h2, h3, h4⟩ := treeRun_err _ _ _ rfl treeInv_empty h
                simp only at h1
                subst h1
                have hes : EntriesOk es := ⟨h2, by simpa using h3⟩
                rcases h4 with ⟨rfl, mode, name, sha, g1, g2, g3, g4, rfl⟩ | ⟨rfl, x, r', hx, rfl, hn⟩
                · have := Faulty.cutHash (N := N) d z es mode name sha hz hes g1 g2 g3 g4
                  simpa using this
                · have := Faulty.repeated (N := N) d z es x r' hz hes hx (by simpa using hn)
                  simpa using this
              · rw [parse_commit, decodeCommit_eq, hnum, bind_ok_err] at h
                obtain ⟨bs, c, h1, h2⟩ := (commitRun_err _ _ _ _ _ (Nat.lt_succ_self _) hN).1 h
                have := Faulty.commit d z r bs c e hz h1 ((commitMeans_iff _ _ _).1 h2)
                simpa using this
              · rw [show b!"blob" ++ SP :: (d ++ NUL :: r) = b!"blob " ++ d ++ NUL :: r by simp] at h ⊢
                rcases (parse_sized hz r N e).1 h with ⟨h1, rfl⟩ | ⟨h1, rfl, rfl⟩ | ⟨h1, h2, rfl⟩
                · exact .negative d z r hz h1
                · exact .emptyBlob d z hz h1
                · exact .shortBlob d z r hz h1 h2
            · have hz : ∀ z, ¬ SizeField d z := fun z h => hz ⟨z, h⟩
              rw [parse_badSize hn' d r hd hz N] at h
              simp only [Res.err.injEq] at h
              subst h
              exact .badSize w d r hn' hd hz
        · rw [parse_noSize hn r hnul N] at h
          simp only [Res.err.injEq] at h
          subst h
          exact .noSize w r hn hnul
      · rw [parse_word hw hn] at h
        simp only [Res.err.injEq] at h
        subst h
        exact .badType w r hw hn
    · have : parseObject (σ := Stream) ⟨b, .eof, N⟩ = .err .unexpectedEof := by
        unfold parseObject readType
        simp only [reader_readString]
        rw [(Stream.readString_err SP ⟨b, .eof, N⟩ .eof).2 ⟨hsp, rfl⟩]
        rfl
      rw [this] at h
      simp only [Res.err.injEq] at h
      subst h
      exact .noType b hsp
  · intro h
    cases h with
    | noType _ h =>
      unfold parseObject readType
      simp only [reader_readString]
      rw [(Stream.readString_err SP ⟨b, .eof, N⟩ .eof).2 ⟨h, rfl⟩]
      rfl
    | badType w r h hw => exact parse_word h hw _ _ _
    | noSize w r hw h => exact parse_noSize hw r h N
    | badSize w d r hw hd h => exact parse_badSize hw d r hd h N
    | negative d z r hd hz => exact (parse_sized hd r N _).2 (.inl ⟨hz, rfl⟩)
    | emptyBlob d z hd hz => exact (parse_sized hd [] N _).2 (.inr (.inl ⟨hz, rfl, rfl⟩))
    | shortBlob d z r hd hne hz => exact (parse_sized hd r N _).2 (.inr (.inr ⟨hne, hz, rfl⟩))
    | cutHash d z es mode name sha hd hes hm hn hne hl =>
      have : ∀ t : Bytes, b!"tree " ++ d ++ NUL :: (treeBody es ++ t) =
        b!"tree" ++ SP :: (d ++ NUL :: (treeBody es ++ t)) := by intro t; simp
      rw [this, parse_tree, decodeTree_eq, readNum_signed d _ _ N z hd.2.1 hd.2.2.1 hd.2.2.2, bind_ok_err]
      simp only [Res.bind_ok]
      rw [treeRun_entries es _ N hes.each treeInv_empty (by simpa using hes.distinct)]
      refine treeRun_bad _ _ _ _ (addRows_inv _ _ treeInv_empty ?_) (.inl ⟨rfl, mode, name, sha, hm, hn, hne, hl, rfl⟩)
      simpa [Entry.row, Function.comp_def] using hes.distinct
    | repeated d z es x r hd hes hx hn =>
      have : ∀ t : Bytes, b!"tree " ++ d ++ NUL :: (treeBody es ++ t) =
        b!"tree" ++ SP :: (d ++ NUL :: (treeBody es ++ t)) := by intro t; simp
      rw [this, parse_tree, decodeTree_eq, readNum_signed d _ _ N z hd.2.1 hd.2.2.1 hd.2.2.2, bind_ok_err]
      simp only [Res.bind_ok]
      rw [treeRun_entries es _ N hes.each treeInv_empty (by simpa using hes.distinct)]
      refine treeRun_bad _ _ _ _ (addRows_inv _ _ treeInv_empty ?_) (.inr ⟨rfl, x, r, hx, rfl, ?_⟩)
      · simpa [Entry.row, Function.comp_def] using hes.distinct
      · rw [addRows_t]
        simpa [Entry.row, Function.comp_def] using hn
    | tag d body ls t _ hd h ht =>
      rw [parse_tag_nul d body .eof N hd, bind_ok_err]
      exact (tagRun_err _ ⟨body, .eof, N⟩ _ (by exact hN) rfl).2 ⟨ls, t, h, (tagMeans_iff _ _ _).2 ht⟩
    | commit d z body bs c _ hd h hc =>
      rw [parse_commit_signed d body z .eof N hd.2.1 hd.2.2.1 hd.2.2.2, bind_ok_err]
      exact (commitRun_err _ _ _ _ _ (Nat.lt_succ_self _) hN).2 ⟨bs, c, h, (commitMeans_iff _ _ _).2 hc⟩

/-- The same for any reader that delivers the bytes and then EOF. -/
theorem refused_reader {ρ : Type} [Source ρ] {inv : ρ → Prop} {pending : ρ → Bytes}
    (D : Delivers ρ inv pending .eof False) (r : ρ) (hr : inv r) (size : Nat) (hs : 2 ≤ size) (room : Nat → Nat)
    (e : Err) : parseObject (newReader r size room) = .err e ↔ Faulty size (pending r) e := by
  rw [delivery_parse D r hr size (by omega) room (fun h => h.elim)]
  exact refused_because _ _ hs e

/-- An input is accepted exactly if nothing is wrong with it. -/
theorem accepted_or_wrong (b : Bytes) (N : Nat) (hN : 2 ≤ N) :
    (∃ o, parseObject (σ := Stream) ⟨b, .eof, N⟩ = .ok o) ↔ ∀ e, ¬ Faulty N b e := by
  constructor
  · rintro ⟨o, h⟩ e hw
    rw [(refused_because b N hN e).2 hw] at h
    cases h
  · intro h
    cases hp : parseObject (σ := Stream) ⟨b, .eof, N⟩ with
    | ok o => exact ⟨o, rfl⟩
    | err e => exact absurd ((refused_because b N hN e).1 hp) (h e)
    | panic => exact absurd hp (parse_no_panic ⟨b, .eof, N⟩ hN (by simp))

/-- Only one thing can be wrong with an input. -/
theorem wrong_one (b : Bytes) (N : Nat) (hN : 2 ≤ N) (e e' : Err) (h : Faulty N b e) (h' : Faulty N b e') : e = e' := by
  have := (refused_because b N hN e).2 h
  rw [(refused_because b N hN e').2 h'] at this
  simpa [eq_comm] using this

theorem badLine_kind {refs persons : List Bytes} {l : Bytes} {e : Err} (h : BadLine refs persons l e) :
    e = .badHex ∨ e = .badSha ∨ e = .badPerson := by
  cases h with
  | ref w x _ _ h => cases h <;> simp
  | person => simp

/-- `io.EOF` means one of three things: the input ends before the NUL behind the
size, it is a blob of which nothing but the header is there, or it is a commit
that ends within a signature or within the message of a merge tag. -/
theorem eof_means (b : Bytes) (N : Nat) (hN : 2 ≤ N) :
    parseObject (σ := Stream) ⟨b, .eof, N⟩ = .err .eof ↔
      (∃ w r, w ∈ [b!"tree", b!"commit", b!"blob", b!"tag"] ∧ NUL ∉ r ∧ b = w ++ SP :: r) ∨
      (∃ d z, SizeField d z ∧ 0 < z ∧ b = b!"blob " ++ d ++ [NUL]) ∨
      (∃ d z body bs c, SizeField d z ∧ b = b!"commit " ++ d ++ NUL :: body ∧ Fault N body bs .eof ∧
        CommitMeans bs none c) := by
  rw [refused_because b N hN]
  constructor
  · intro h
    generalize he : Err.eof = e at h
    cases h with
    | noType => cases he
    | badType => cases he
    | noSize w r hw h => exact .inl ⟨w, r, hw, h, rfl⟩
    | badSize => cases he
    | negative => cases he
    | emptyBlob d z hd hz => exact .inr (.inl ⟨d, z, hd, hz, rfl⟩)
    | shortBlob => cases he
    | cutHash => cases he
    | repeated => cases he
    | tag d body ls t _ hd h ht =>
      subst he
      obtain ⟨r, l, r', _, _, hb⟩ := h
      rcases badLine_kind hb with h | h | h <;> cases h
    | commit d z body bs c _ hd h hc =>
      subst he
      exact .inr (.inr ⟨d, z, body, bs, c, hd, rfl, h, hc⟩)
  · rintro (⟨w, r, hw, h, rfl⟩ | ⟨d, z, hd, hz, rfl⟩ | ⟨d, z, body, bs, c, hd, rfl, h, hc⟩)
    · exact .noSize w r hw h
    · exact .emptyBlob d z hd hz
    · exact .commit d z body bs c .eof hd h hc

/-- `io.EOF` is never the answer to an input without an object: that is
`io.ErrUnexpectedEOF`. -/
theorem eof_not_end (N : Nat) (hN : 2 ≤ N) : parseObject (σ := Stream) ⟨[], .eof, N⟩ = .err .unexpectedEof :=
  (refused_because [] N hN _).2 (.noType [] (by simp))

/-! One input for every kind. -/

example : Faulty 4096 b!"blob" .unexpectedEof := .noType _ (by decide)

example : Faulty 4096 b!"Blob 3\x00abc" .badType := .badType b!"Blob" b!"3\x00abc" (by decide) (by decide)

example : Faulty 4096 b!"tag 12" .eof := .noSize b!"tag" b!"12" (by decide) (by decide)

example : Faulty 4096 b!"tree 0x1\x00abc" .atoi := (refused_because _ 4096 (by decide) _).1 (by decide +kernel)

theorem size_seven : SizeField b!"7" 7 :=
  ⟨by decide, ⟨b!"7", by decide, by simp [Digit], .inl ⟨rfl, by decide⟩⟩, by decide, by decide⟩

example : Faulty 4096 b!"blob -007\x00abc" .negSize :=
  .negative b!"-007" (-7) b!"abc" ⟨by decide, ⟨b!"007", by decide, by simp [Digit], Or.inr (Or.inr ⟨rfl, by decide⟩)⟩,
    by decide, by decide⟩ (by decide)

example : Faulty 4096 b!"blob 7\x00" .eof := .emptyBlob b!"7" 7 size_seven (by decide)

example : Faulty 4096 b!"blob 7\x00abc" .unexpectedEof := .shortBlob b!"7" 7 b!"abc" size_seven (by decide) (by decide)

example : Faulty 4096 (b!"tree 7\x00" ++ (treeBody sampleEntries ++ b!"100644 cut\x00abc")) .unexpectedEof :=
  .cutHash b!"7" 7 sampleEntries b!"100644" b!"cut" b!"abc" size_seven sampleEntries_ok (by decide) (by decide)
    (by decide) (by decide)

example : Faulty 4096 (b!"tree 7\x00" ++ (treeBody sampleEntries ++ ((⟨b!"1", b!"a.txt", List.replicate 20 7⟩ : Entry).text ++
    b!"rest"))) .repeatedKey :=
  .repeated b!"7" 7 sampleEntries ⟨b!"1", b!"a.txt", List.replicate 20 7⟩ b!"rest" size_seven sampleEntries_ok
    ⟨by decide, by decide, by decide⟩ (by decide)

/-- The tagger has no address. -/
example : Faulty 4096 b!"tag ?\x00type a\ntagger A a@b 5 +0000\n\nhi" .badPerson :=
  .tag b!"?" b!"type a\ntagger A a@b 5 +0000\n\nhi" [b!"type a"] ⟨.nil, b!"a", [], ⟨[], [], [], []⟩, []⟩ .badPerson
    (by decide)
    (.line b!"tagger A a@b 5 +0000\n\nhi" b!"tagger A a@b 5 +0000" b!"\nhi"
      (.more _ _ _ _ _ (.lf b!"type a" b!"tagger A a@b 5 +0000\n\nhi" (by decide) (by decide) (by decide)) (by decide)
        (.none _))
      (.lf b!"tagger A a@b 5 +0000" b!"\nhi" (by decide) (by decide) (by decide))
      (.person b!"tagger " _ (by decide) (by decide) (by
        intro p h
        have h := (person_accepts _ _).2 h
        have : parsePersonInfo b!"tagger A a@b 5 +0000" = .err .badPerson := by decide +kernel
        rw [this] at h
        simp at h)))
    ⟨⟨[], trivial, rfl⟩, rfl, rfl, ⟨[], trivial, rfl⟩, rfl⟩

/-- The commit ends within a signature. -/
example : Faulty 4096 b!"commit 7\x00odd\ngpgsig x\n \n abc" .eof :=
  .commit b!"7" 7 b!"odd\ngpgsig x\n \n abc" [.line b!"odd"] { Commit.zero with other := [b!"odd"] } .eof size_seven
    (.line _ b!"odd" b!"gpgsig x\n \n abc" _ _ (.lf b!"odd" b!"gpgsig x\n \n abc" (by decide) (by decide) (by decide))
      (by decide) (by decide) (by decide)
      (.openSig _ b!"gpgsig x" b!" \n abc" [b!" ", b!" abc"]
        (.lf b!"gpgsig x" b!" \n abc" (by decide) (by decide) (by decide)) (by decide)
        (.more _ b!" " b!" abc" _ _ (.lf b!" " b!" abc" (by decide) (by decide) (by decide)) (by decide)
          (.more _ b!" abc" [] _ _ (.last b!" abc" (by decide) (by decide) (by decide)) (by decide) (.none _)))
        (.inr ⟨_, rfl, .inl rfl⟩)))
    ⟨⟨[], trivial, rfl⟩, trivial, ⟨[], trivial, rfl⟩, ⟨[], trivial, rfl⟩, rfl, trivial,
      ⟨by simp [signatures, SigStart], rfl⟩, by decide, rfl⟩

/-- So does this one, within the message of a merge tag; with one more line, `x`,
the commit is accepted. -/
example : Faulty 4096 b!"commit 7\x00mergetag object 0101010101010101010101010101010101010101\n type commit\n \n msg\n" .eof ∧
    ∃ c, parseObject (σ := Stream)
      ⟨b!"commit 7\x00mergetag object 0101010101010101010101010101010101010101\n type commit\n \n msg\nx", .eof, 4096⟩ =
        .ok (.commit c) :=
  ⟨(refused_because _ 4096 (by decide) _).1 (by decide +kernel),
   by exact ⟨_, rfl⟩⟩

end Verif.Props
