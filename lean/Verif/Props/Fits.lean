import Verif.Proofs.PiecesCommit
import Verif.Spec.Fits
import Verif.Props.SettleExact

/-!
# Which values survive, with header lines of any length: C62, C73
-/

namespace Verif.Props

open Verif Spec

/-- What is written for a link is read as that link. -/
theorem refLink_hex {l : Link} (h : IsGitLink l) : RefLink (hex (digest l)) l := by
  obtain ⟨sha, h1, rfl⟩ := h
  exact ⟨sha, by rw [digest_gitLink]; exact ref_hex sha h1, rfl⟩

/-- What is written for a person is read as that person. -/
theorem personRead_text {w : Bytes} {p : PersonInfo} (hw : SP ∉ w) (h : PersonOk p) :
    PersonRead (w ++ SP :: personText p) p := by
  have h2 := person_roundtrip w p hw
  rw [h2.1] at h2
  exact (person_accepts _ _).1 (h2.2.2 h)

/-! ## Tags -/

theorem head_le {N : Nat} {b : Bytes} {ls : List Bytes} {m : Option Bytes} (h : Head N b ls m) :
    ∀ l ∈ ls, l.length ≤ N := by
  induction h with
  | done => simp
  | blank => simp
  | line b l r ls m h hne hr ih =>
    intro x hx
    rcases List.mem_cons.1 hx with rfl | hx
    · exact line_len_le h
    · exact ih x hx

theorem head_first {N : Nat} (hN : 2 ≤ N) {b l r : Bytes} {ls : List Bytes} {m : Option Bytes} (h : Head N b ls m)
    (hl : Line N b l r) (hne : l ≠ []) : ∃ ls', ls = l :: ls' ∧ Head N r ls' m := by
  cases h with
  | done => exact (Line_nil hN hl).elim
  | blank _ r h => exact absurd (Line_unique hN hl h).1 hne
  | line _ l' r ls' _ h hne' hr =>
    obtain ⟨rfl, rfl⟩ := Line_unique hN hl h
    exact ⟨ls', rfl, hr⟩

theorem head_blank {N : Nat} (hN : 2 ≤ N) {b r : Bytes} {ls : List Bytes} {m : Option Bytes} (h : Head N b ls m)
    (hl : Line N b [] r) : ls = [] ∧ m = some r := by
  cases h with
  | done => exact (Line_nil hN hl).elim
  | blank _ r h => exact ⟨rfl, by rw [(Line_unique hN hl h).2]⟩
  | line _ l' r ls' _ h hne' hr => exact absurd (Line_unique hN h hl).1 hne'

/-- A line that just fills the buffer ends the header. -/
theorem head_exact {N : Nat} (hN : 2 ≤ N) {l T : Bytes} {ls : List Bytes} {m : Option Bytes} (hl : LF ∉ l)
    (hs : l.length = N) (h : Head N (l ++ LF :: T) ls m) :
    m = some T ∧ ∃ f, f <+: l ∧ ls = [f] ∧ N ≤ f.length + 1 ∧ (f = l → l.getLast? ≠ some CR) := by
  by_cases hc : l.getLast? = some CR
  · have e := concat_of_last hc
    rw [e] at h hl
    rw [List.append_assoc] at h
    simp only [List.mem_append, not_or] at hl
    have hlen : l.dropLast.length + 1 = N := by simp; omega
    obtain ⟨ls', rfl, h1⟩ := head_first hN h (.fullCR _ _ hl.1 hlen) (by
      intro h0; rw [h0] at hlen; simp at hlen; omega)
    obtain ⟨rfl, rfl⟩ := head_blank hN h1 (.crlf [] T (by simp) (by simp; omega))
    refine ⟨rfl, _, List.dropLast_prefix l, rfl, by omega, ?_⟩
    intro h0
    rw [h0] at hlen
    omega
  · obtain ⟨ls', rfl, h1⟩ := head_first hN h (.full _ _ hl hc hs) (by rintro rfl; simp at hs; omega)
    obtain ⟨rfl, rfl⟩ := head_blank hN h1 (line_blank hN T)
    exact ⟨rfl, _, List.prefix_rfl, rfl, by omega, fun _ => hc⟩

/-- However long a last line is, what is read are pieces of it. -/
theorem head_cuts {N : Nat} (hN : 2 ≤ N) {T : Bytes} {m : Option Bytes} (hT : ∀ ls, Head N T ls m → ls = []) :
    ∀ (l : Bytes) (ls : List Bytes), LF ∉ l → Head N (l ++ LF :: T) ls m → ls <+: cuts N l := by
  have main : ∀ n, ∀ (l : Bytes) (ls : List Bytes), l.length < n → LF ∉ l → Head N (l ++ LF :: T) ls m →
      ls <+: cuts N l := by
    intro n
    induction n with
    | zero => intro l ls h; omega
    | succ n ih =>
      intro l ls hl hLF h
      have step : ∀ {f r : Bytes} {L : List Bytes}, Line N (l ++ LF :: T) f r →
          (∀ ls', Head N r ls' m → ls' <+: L) → ls <+: f :: L := by
        intro f r L h1 h2
        by_cases hf : f = []
        · subst hf
          rw [(head_blank hN h h1).1]
          exact List.nil_prefix
        · obtain ⟨ls', rfl, h'⟩ := head_first hN h h1 hf
          exact (List.prefix_cons_inj f).2 (h2 ls' h')
      by_cases hs : l.length < N
      · rw [cuts_short hs]
        exact step (line_trim l T hLF hs) fun ls' h' => by rw [hT ls' h']; exact List.nil_prefix
      · obtain ⟨f, r, rfl, hc, hf⟩ := cuts_long hN (Nat.le_of_not_lt hs)
        rw [hc]
        rw [List.append_assoc] at step
        simp only [List.length_append] at hl
        simp only [List.mem_append, not_or] at hLF
        rcases hf with ⟨hf, hcr⟩ | ⟨hf, r', rfl⟩
        · exact step (.full f _ hLF.1 hcr hf) fun ls' h' => ih r ls' (by omega) hLF.2 h'
        · exact step (.fullCR f _ hLF.1 hf) fun ls' h' => ih _ ls' (by omega) hLF.2 h'
  exact fun l ls => main _ l ls (Nat.lt_succ_self _)

/-- A tag is encoded and read back as it was exactly if it fits, however long its
lines are. -/
theorem tag_survives_exact (N : Nat) (hN : 4096 ≤ N) (t : Tag) :
    (∃ out, encObj (.tag t) = .ok out ∧ parseObject (σ := Stream) ⟨out, .eof, N⟩ = .ok (.tag t)) ↔ TagFits N t := by
  have hN2 : 2 ≤ N := by omega
  constructor
  · intro hsur
    obtain ⟨out, henc, hdec⟩ := id hsur
    obtain ⟨_, d, body, ls, m, hd, hrest, hh, hm⟩ := (tag_accepts ⟨out, .eof, N⟩ hN2 t).1 hdec
    simp only at hrest hh
    have hobj := gitOrNil_last hm.object
    rw [encTag_text t hobj] at henc
    have hout := Res.ok.inj henc
    rw [hrest] at hout
    have hb := withHeader_body (w := b!"tag") (body' := body) hd (hout.trans (by simp))
    subst hb
    have hls := head_lines hh
    have hle := head_le hh
    have b1 : (b!"type " ++ t.typ).length ≤ N := by
      rw [hm.typ]
      rcases getLast?_getD_mem (behind b!"type " ls) [] with h | h
      · rw [h]; simp; omega
      · exact hle _ (behind_mem h)
    have b2 : (b!"tag " ++ t.tag).length ≤ N := by
      rw [hm.tag]
      rcases getLast?_getD_mem (behind b!"tag " ls) [] with h | h
      · rw [h]; simp; omega
      · exact hle _ (behind_mem h)
    have hLF1 : LF ∉ t.typ := by
      rw [hm.typ]
      rcases getLast?_getD_mem (behind b!"type " ls) [] with h | h
      · rw [h]; simp
      · exact fun hc => (hls _ (behind_mem h)).1 (List.mem_append_right _ hc)
    have hLF2 : LF ∉ t.tag := by
      rw [hm.tag]
      rcases getLast?_getD_mem (behind b!"tag " ls) [] with h | h
      · rw [h]; simp
      · exact fun hc => (hls _ (behind_mem h)).1 (List.mem_append_right _ hc)
    have hLF3 : LF ∉ personText t.tagger := by
      rcases lastValue_cases hm.tagger with h | ⟨x, hx, h⟩
      · rw [h]; decide
      · exact personRead_noLF h (hls x (linesWith_mem hx)).1
    have hl0 := hex_line hN b!"object " t.object (by decide) (by decide) (by decide) hobj
    simp only [unlines_cons, unlines_nil, List.nil_append, List.append_assoc] at hh
    rw [← List.append_assoc, ← List.append_assoc (b!"type "), ← List.append_assoc (b!"tag "),
      ← List.append_assoc (b!"tagger ")] at hh
    have hmsg := hm.message
    have hml : t.message.length ≤ (messageText (if t.message = [] then none else some t.message)).length := by
      split
      · rename_i h; simp [h]
      · simp [messageText]
    have k1 : trimCR (b!"object " ++ hex (digest t.object)) = b!"object " ++ hex (digest t.object) := trimCR_of hl0.noCR
    have k2 : trimCR (b!"type " ++ t.typ) = b!"type " ++ trimCR t.typ := trimCR_append _ _ (by decide)
    have k3 : trimCR (b!"tag " ++ t.tag) = b!"tag " ++ trimCR t.tag := trimCR_append _ _ (by decide)
    have l1 : LF ∉ b!"type " ++ t.typ := by simp [hLF1]; decide
    have l2 : LF ∉ b!"tag " ++ t.tag := by simp [hLF2]; decide
    have l3 : LF ∉ b!"tagger " ++ personText t.tagger := by simp [hLF3]; decide
    obtain ⟨ls1, rfl, hh1⟩ := head_cons_inv hN2 hl0.noLF hl0.short (by rw [k1]; simp) hh
    have hs1 : (b!"type " ++ t.typ).length < N := by
      refine Nat.lt_of_le_of_ne b1 fun he => ?_
      obtain ⟨rfl, _⟩ := head_exact hN2 l1 he hh1
      rw [Option.getD_some] at hmsg
      have := congrArg List.length hmsg
      simp only [List.length_append, List.length_cons] at this
      omega
    obtain ⟨ls2, rfl, hh2⟩ := head_cons_inv hN2 l1 hs1 (by rw [k2]; simp) hh1
    have hs2 : (b!"tag " ++ t.tag).length < N := by
      refine Nat.lt_of_le_of_ne b2 fun he => ?_
      obtain ⟨rfl, _⟩ := head_exact hN2 l2 he hh2
      rw [Option.getD_some] at hmsg
      have := congrArg List.length hmsg
      simp only [List.length_append, List.length_cons] at this
      omega
    obtain ⟨ls3, rfl, hh3⟩ := head_cons_inv hN2 l2 hs2 (by rw [k3]; simp) hh2
    by_cases hs3 : (b!"tagger " ++ personText t.tagger).length < N
    · have := (tag_survives N hN t hs1 hs2 hs3).1 hsur
      exact ⟨this.object, this.typ, this.tag, this.tagger, this.taggerLine.noLF, this.taggerLine.noCR, by
        have := this.taggerLine.short
        split <;> omega⟩
    -- a tagger line that does not fit
    have b3 : (b!"tagger " ++ personText t.tagger).length ≤ N + 1 := by
      rcases lastValue_cases hm.tagger with h | ⟨x, hx, h⟩
      · exfalso
        apply hs3
        rw [h]
        have : (b!"tagger " ++ personText ⟨[], [], [], []⟩).length = 10 := by decide
        omega
      · obtain ⟨y, rfl⟩ := List.isPrefixOf_iff_prefix.1 (List.mem_filter.1 hx).2
        have h1 := (personRead_length (w := b!"tagger") (y := y) (by decide) (by simpa using h)).1
        have h2 := hle _ (linesWith_mem hx)
        simp only [List.length_append] at h2 ⊢
        omega
    obtain ⟨f, gs, hcuts, hf, hfN, hfc, hfl, _, c2, c3, c4, c5⟩ :=
      cuts_shape (N := N) (by omega) (l := b!"tagger " ++ personText t.tagger) b3
    have hlong : (b!"tagger " ++ personText t.tagger).length = N ∨
        (b!"tagger " ++ personText t.tagger).length = N + 1 := by omega
    have hpre : ls3 <+: f :: gs := by
      rw [← hcuts]
      refine head_cuts hN2 (fun ls h => ?_) _ _ l3 hh3
      generalize hb : messageText _ = b at h
      split at hb <;> simp only [messageText] at hb <;> subst hb
      · cases h with
        | done => rfl
        | blank => rfl
        | line _ l r _ _ h hne _ => exact (Line_nil hN2 h).elim
      · exact (head_blank hN2 h (line_blank hN2 _)).1
    have hw : b!"tagger " <+: f := c5 _ ⟨_, rfl⟩ (by decide) (by simp; omega)
    have hg : ∀ g ∈ gs, ¬ b!"tagger " <+: g := by
      intro g hg h
      have h1 := h.length_le
      have h2 := (c4 g hg).1
      simp at h1
      omega
    have p4 : linesWith b!"tagger " ((b!"object " ++ hex (digest t.object)) :: (b!"type " ++ trimCR t.typ) ::
        (b!"tag " ++ trimCR t.tag) :: ls3) = linesWith b!"tagger " ls3 := by
      simp [linesWith]
    have htg := hm.tagger
    rw [k1, k2, k3, p4] at htg
    have hread : PersonRead f t.tagger := by
      rcases lastValue_cases htg with h | ⟨x, hx, h⟩
      · exfalso
        apply hs3
        rw [h]
        have : (b!"tagger " ++ personText ⟨[], [], [], []⟩).length = 10 := by decide
        omega
      · obtain ⟨h1, h2⟩ := List.mem_filter.1 hx
        rcases List.mem_cons.1 (hpre.subset h1) with rfl | h1
        · exact h
        · exact absurd (List.isPrefixOf_iff_prefix.1 h2) (hg x h1)
    have hwhole : f = b!"tagger " ++ personText t.tagger := by
      have := personRead_whole (w := b!"tagger") (f := f) (p := t.tagger) (by decide) (by simpa using hf)
        (by simp; omega) hread
      simpa using this
    have he : (b!"tagger " ++ personText t.tagger).length = N := by
      rw [hwhole] at hfN
      omega
    have hcr := hfc hwhole
    obtain ⟨_, hok⟩ := person_exact (w := b!"tagger") (p := t.tagger) (by decide) (by decide) (by
      have e : b!"tagger" ++ SP :: personText t.tagger = b!"tagger " ++ personText t.tagger := by simp
      rw [e, trimCR_of hcr, ← hwhole]
      exact hread)
    obtain ⟨rfl, f', hf', rfl, _⟩ := head_exact hN2 l3 he hh3
    obtain rfl : f' = f := by
      obtain ⟨z, hz⟩ := hpre
      simp at hz
      exact hz.1
    have hempty : t.message = [] := by
      apply Classical.byContradiction
      intro hne
      rw [if_neg hne] at hmsg
      have := congrArg List.length hmsg
      simp [messageText] at this
    subst hwhole
    have h1 := hm.object
    have h2 := hm.typ
    have h3 := hm.tag
    rw [k1, k2, k3] at h1 h2 h3
    have p1 : behind b!"object " [b!"object " ++ hex (digest t.object), b!"type " ++ trimCR t.typ,
        b!"tag " ++ trimCR t.tag, b!"tagger " ++ personText t.tagger] = [hex (digest t.object)] := by
      simp [behind, linesWith]
    have p2 : behind b!"type " [b!"object " ++ hex (digest t.object), b!"type " ++ trimCR t.typ,
        b!"tag " ++ trimCR t.tag, b!"tagger " ++ personText t.tagger] = [trimCR t.typ] := by
      simp [behind, linesWith]
    have p3 : behind b!"tag " [b!"object " ++ hex (digest t.object), b!"type " ++ trimCR t.typ,
        b!"tag " ++ trimCR t.tag, b!"tagger " ++ personText t.tagger] = [trimCR t.tag] := by
      simp [behind, linesWith]
    rw [p1] at h1
    rw [p2] at h2
    rw [p3] at h3
    have h2 : t.typ = trimCR t.typ := by simpa using h2
    have h3 : t.tag = trimCR t.tag := by simpa using h3
    obtain ⟨ys, hys, h1⟩ := h1
    obtain ⟨y, rfl⟩ : ∃ y, ys = [y] := by
      have := pairs_length hys
      match ys, this with
      | [y], _ => exact ⟨y, rfl⟩
    have h1 : t.object = y := by simpa using h1
    exact
      { object := by rw [h1]; exact refLink_git hys.1
        typ := ⟨l1, (trimCR_eq_iff _).1 (by rw [k2, ← h2]), hs1⟩
        tag := ⟨l2, (trimCR_eq_iff _).1 (by rw [k3, ← h3]), hs2⟩
        tagger := hok
        taggerLine := ⟨l3, hcr, by rw [if_pos hempty]; omega⟩ }
  · intro h
    by_cases hs : (b!"tagger " ++ personText t.tagger).length < N
    · exact tag_roundtrip N hN t ⟨h.object, h.typ, h.tag, h.tagger, h.taggerLine.noLF, h.taggerLine.noCR, hs⟩
    · have h5 := h.taggerLine.short
      have hempty : t.message = [] := by
        apply Classical.byContradiction
        intro hne
        rw [if_neg hne] at h5
        exact hs h5
      rw [if_pos hempty] at h5
      have hl0 := hex_line hN b!"object " t.object (by decide) (by decide) (by decide) (.inl h.object)
      refine ⟨_, encTag_text t (.inl h.object), ?_⟩
      refine (tag_accepts ⟨_, .eof, N⟩ hN2 t).2 ⟨rfl, decimal _, _, [b!"object " ++ hex (digest t.object),
        b!"type " ++ t.typ, b!"tag " ++ t.tag, b!"tagger " ++ personText t.tagger], some [], nul_notin_decimal _,
        by simp [withHeader]; rfl, ?_, ?_⟩
      · simp only [if_pos hempty, messageText, unlines_cons, unlines_nil]
        refine .line _ _ _ _ _ (.lf _ _ hl0.noLF hl0.noCR hl0.short) (by simp) ?_
        refine .line _ _ _ _ _ (.lf _ _ h.typ.noLF h.typ.noCR h.typ.short) (by simp) ?_
        refine .line _ _ _ _ _ (.lf _ _ h.tag.noLF h.tag.noCR h.tag.short) (by simp) ?_
        refine .line _ _ (LF :: []) _ _ (.full _ _ h.taggerLine.noLF h.taggerLine.noCR (by simp at hs h5 ⊢; omega)) (by simp) ?_
        exact .blank _ _ (line_blank hN2 [])
      · constructor
        · refine ⟨[t.object], ?_, rfl⟩
          simp [behind, linesWith]
          exact ⟨refLink_hex h.object, trivial⟩
        · simp [behind, linesWith]
        · simp [behind, linesWith]
        · refine ⟨[t.tagger], ?_, rfl⟩
          simp [linesWith]
          exact ⟨personRead_text (w := b!"tagger") (by decide) h.tagger, trivial⟩
        · simp [hempty]

/-- A person whose line as a tagger has 4096 bytes. -/
def longPerson : PersonInfo := ⟨List.replicate 4086 65, [], [], []⟩

theorem longPerson_ok : PersonOk longPerson :=
  ⟨by decide, (not_infix_iff _ _).2 (by decide +kernel), (not_infix_iff _ _).2 (by decide),
    (not_infix_iff _ _).2 (by decide), by decide, by decide, by decide⟩

/-- A tagger line that fills the buffer survives without a message. -/
example : TagFits 4096 { sampleTag with tagger := longPerson, message := [] } ∧
    ¬ TagOk 4096 { sampleTag with tagger := longPerson, message := [] } := by
  refine ⟨⟨⟨_, by decide, rfl⟩, headerLine_mk (by decide) (by omega), headerLine_mk (by decide) (by omega),
    longPerson_ok, by decide +kernel, by decide +kernel, by decide +kernel⟩, fun h => ?_⟩
  exact absurd h.taggerLine.short (by decide +kernel)

/-- It does not survive with one. -/
example : ¬ TagFits 4096 { sampleTag with tagger := longPerson, message := b!"x" } :=
  fun h => absurd h.taggerLine.short (by decide +kernel)

/-! ## Commits -/

theorem commit_survives_fits (N : Nat) (hN : 4096 ≤ N) (c : Commit)
    (hsur : ∃ out, encObj (.commit c) = .ok out ∧ parseObject (σ := Stream) ⟨out, .eof, N⟩ = .ok (.commit c)) :
    ∃ a k, CommitFits N c a k := by
  obtain ⟨out, henc, hdec⟩ := hsur
  have hN2 : 2 ≤ N := by omega
  obtain ⟨_, d, z, body, bs, m, hd, hrest, hb, hm⟩ := (commit_accepts ⟨out, .eof, N⟩ hN2 c).1 hdec
  simp only at hrest hb
  obtain ⟨_, _, _, _, _, _, _, h3, h4, _, _⟩ := encCommit_inv _ _ henc
  obtain ⟨a, ha⟩ := personOrPanic_some h3
  obtain ⟨k, hk⟩ := personOrPanic_some h4
  clear h3 h4
  have hok := blocks_ok hb
  have hle := blocks_le hb
  -- the fields of `c` come from lines
  have htree : GitOrNil c.tree := gitOrNil_last hm.tree
  have hpar : ∀ p ∈ c.parents, IsGitLink p := by
    intro p hp
    obtain ⟨x, _, h⟩ := pairs_mem hm.parents p hp
    exact refLink_git h
  have hmobj : ∀ t ∈ c.mergetag, IsGitLink t.object := by
    intro t ht
    obtain ⟨x, _, h⟩ := pairs_mem hm.mergetag t ht
    exact refLink_git h.object
  have hmsg : ∀ t ∈ c.mergetag, ∃ ls, t.message = unlines ls ∧ ∀ l ∈ ls, LF ∉ l ∧ l.head? = some SP := by
    intro t ht
    obtain ⟨x, hx, h⟩ := pairs_mem hm.mergetag t ht
    exact ⟨_, h.message, (hok _ (mem_mergeTags hx)).2⟩
  have hmsgL : ∀ t ∈ c.mergetag, IsLines t.message := by
    intro t ht
    obtain ⟨ls, h1, h2⟩ := hmsg t ht
    exact ⟨ls, h1, fun l hl => (h2 l hl).1⟩
  have hplain : ∀ l ∈ plainLines bs, LF ∉ l ∧ l ≠ [] := fun l hl => hok _ (mem_plainLines hl)
  have hperson : ∀ (w : Bytes) (p : PersonInfo), (∃ ps, Pairs PersonRead (linesWith w (plainLines bs)) ps ∧
      some p = ps.getLast?) → LF ∉ personText p := by
    rintro w p ⟨ps, hp, hl⟩
    obtain ⟨x, hx, h⟩ := pairs_mem hp p (List.mem_of_getLast? hl.symm)
    exact personRead_noLF h (hplain x (linesWith_mem hx)).1
  have hLFa := hperson b!"author " a (ha ▸ hm.author)
  have hLFk := hperson b!"committer " k (hk ▸ hm.committer)
  have hLFe : ∀ e, c.encoding = some e → LF ∉ e := by
    intro e he hc
    have := hm.encoding
    rw [he] at this
    exact (hplain _ (behind_mem (List.mem_of_getLast? this.symm))).1 (List.mem_append_right _ hc)
  have hoth : ∀ l ∈ c.other, (LF ∉ l ∧ l ≠ []) ∧ ∀ w ∈ knownHeaders, ¬ w <+: l := by
    intro l hl
    rw [hm.other] at hl
    exact ⟨hplain l (List.mem_filter.1 hl).1, other_unknown hl⟩
  have hsig : ∀ g, c.signature = some g → ∃ gl, g = unlines gl ∧ (signatures bs).getLast? = some gl ∧
      (∀ l ∈ gl, LF ∉ l ∧ l ≠ sigEnd) ∧ SigStart gl := by
    intro g hg
    have h1 := hm.signature.2
    rw [hg] at h1
    obtain ⟨gl, h2, h3⟩ := Option.map_eq_some_iff.1 h1.symm
    have h4 := List.mem_of_getLast? h2
    exact ⟨gl, h3.symm, h2, hok _ (mem_signatures h4), hm.signature.1 gl h4⟩
  have hsigL : ∀ g, c.signature = some g → IsLines g := by
    intro g hg
    obtain ⟨gl, h1, _, h2, _⟩ := hsig g hg
    exact ⟨gl, h1, fun l hl => (h2 l hl).1⟩
  -- the text
  have hout : out = withHeader b!"commit" (commitBody c a k) := by
    have : encObj (.commit c) = _ := encCommit_text c a k htree hpar ha hk hmobj
    rw [this] at henc
    exact (Res.ok.inj henc).symm
  rw [hout] at hrest
  have hbody := withHeader_body (w := b!"commit") (body' := body) hd.1 (hrest.trans (by simp))
  subst hbody
  rw [commitBody_lines c a k hmsgL hsigL] at hb
  have htypLF : ∀ t ∈ c.mergetag, LF ∉ t.typ ∧ LF ∉ t.tag ∧ LF ∉ personText t.tagger := by
    intro t ht
    obtain ⟨x, hx, h⟩ := pairs_mem hm.mergetag t ht
    have hx := (hok _ (mem_mergeTags hx)).1
    refine ⟨?_, ?_, ?_⟩
    · rw [h.typ]
      rcases getLast?_getD_mem (behind b!" type " x.2.1) [] with h' | h'
      · rw [h']; simp
      · exact fun hc => hx _ (behind_mem h') (List.mem_append_right _ hc)
    · rw [h.tag]
      rcases getLast?_getD_mem (behind b!" tag " x.2.1) [] with h' | h'
      · rw [h']; simp
      · exact fun hc => hx _ (behind_mem h') (List.mem_append_right _ hc)
    · rcases lastValue_cases h.tagger with h' | ⟨y, hy, h'⟩
      · rw [h']; decide
      · obtain ⟨y, hy', rfl⟩ := List.mem_map.1 hy
        exact personRead_noLF h' fun hc => hx y (linesWith_mem hy') (List.mem_of_mem_drop hc)
  have hLF : ∀ l ∈ headerLines c a k, LF ∉ l := by
    intro l hl
    simp only [headerLines, frontLines, List.mem_append, List.mem_cons, List.not_mem_nil, or_false, List.mem_map,
      Option.mem_toList, Option.map_eq_some_iff, List.mem_flatMap] at hl
    rcases hl with (((rfl | ⟨p, hp, rfl⟩) | rfl | rfl) | ⟨e, he, rfl⟩) | ⟨t, ht, hl⟩ | hl | hl
    · exact (hex_line hN _ _ (by decide) (by decide) (by decide) htree).noLF
    · exact (hex_line hN _ _ (by decide) (by decide) (by decide) (.inl (hpar p hp))).noLF
    · simp [hLFa]; decide
    · simp [hLFk]; decide
    · simp [hLFe e he]; decide
    · simp only [mergeLines, List.mem_append, List.mem_cons, List.not_mem_nil, or_false] at hl
      obtain ⟨h1, h2, h3⟩ := htypLF t ht
      rcases hl with (rfl | rfl | rfl | rfl | rfl) | hl
      · exact (hex_line hN _ _ (by decide) (by decide) (by decide) (.inl (hmobj t ht))).noLF
      · simp [h1]; decide
      · simp [h2]; decide
      · simp [h3]; decide
      · decide
      · exact ((isLines_iff _).1 (hmsgL t ht)).2 l hl
    · cases hg : c.signature with
      | none => rw [hg] at hl; simp [sigLines] at hl
      | some g =>
        rw [hg] at hl
        simp only [sigLines, List.mem_cons, List.mem_append, List.not_mem_nil, or_false] at hl
        rcases hl with rfl | hl | rfl
        · decide
        · exact ((isLines_iff _).1 (hsigL g hg)).2 l hl
        · decide
    · exact (hoth l hl).1.1
  -- the blocks
  have hplainLe : ∀ l ∈ plainLines bs, l.length ≤ N := fun l hl => hle _ (mem_plainLines hl)
  have hpersonLe : ∀ (w : Bytes) (p : PersonInfo), SP ∉ w → (∃ ps, Pairs PersonRead
      (linesWith (w ++ b!" ") (plainLines bs)) ps ∧ some p = ps.getLast?) → (w ++ b!" " ++ personText p).length ≤ N + 1 := by
    rintro w p hw ⟨ps, hp, hl⟩
    obtain ⟨x, hx, h⟩ := pairs_mem hp p (List.mem_of_getLast? hl.symm)
    have h2 := hplainLe x (linesWith_mem hx)
    obtain ⟨y, rfl⟩ := List.isPrefixOf_iff_prefix.1 (List.mem_filter.1 hx).2
    have h1 := (personRead_length (w := w) (y := y) hw (by simpa using h)).1
    simp only [List.length_append] at h2 ⊢
    omega
  have hfrontLe : ∀ l ∈ frontLines c a k, l.length ≤ N + 1 := by
    intro l hl
    simp only [frontLines, List.mem_append, List.mem_cons, List.not_mem_nil, or_false, List.mem_map,
      Option.mem_toList, Option.map_eq_some_iff] at hl
    rcases hl with ((rfl | ⟨p, hp, rfl⟩) | rfl | rfl) | ⟨e, he, rfl⟩
    · have := (hex_line hN _ _ (by decide) (by decide) (by decide) htree : HeaderLine N (b!"tree " ++ _)).short
      omega
    · have := (hex_line hN _ _ (by decide) (by decide) (by decide) (.inl (hpar p hp)) :
        HeaderLine N (b!"parent " ++ _)).short
      omega
    · exact hpersonLe b!"author" a (by decide) (ha ▸ hm.author)
    · exact hpersonLe b!"committer" k (by decide) (hk ▸ hm.committer)
    · have := hm.encoding
      rw [he] at this
      have := hplainLe _ (behind_mem (List.mem_of_getLast? this.symm))
      omega
  have hothLe : ∀ l ∈ c.other, l.length ≤ N := by
    intro l hl
    rw [hm.other] at hl
    exact hplainLe l (List.mem_filter.1 hl).1
  have hL := blocks_pieces hN2 hb _ _ (pieces_all hN2 c.message _ hLF) hm.message.symm
  simp only [headerLines, List.flatMap_append] at hL
  obtain ⟨bs1, rfl, hL1⟩ := lblocks_front hL
    (by
      intro l hl hp
      rcases front_piece hN hfrontLe hl with ⟨w, hw, h⟩ | h
      · simp only [frontWords, List.mem_cons, List.not_mem_nil, or_false] at hw
        rcases prefix_clash hp h with h' | h' <;> rcases hw with rfl | rfl | rfl | rfl | rfl <;> revert h' <;> decide
      · have := hp.length_le
        simp at this
        omega)
    (by
      intro l hl hp
      rcases front_piece hN hfrontLe hl with ⟨w, hw, h⟩ | h
      · simp only [frontWords, List.mem_cons, List.not_mem_nil, or_false] at hw
        rcases prefix_clash hp h with h' | h' <;> rcases hw with rfl | rfl | rfl | rfl | rfl <;> revert h' <;> decide
      · have := hp.length_le
        simp at this
        omega)
  have hok1 : ∀ B ∈ bs1, BlockOk B := fun B hB => hok B (List.mem_append_right _ hB)
  have hle1 : ∀ B ∈ bs1, BlockLe N B := fun B hB => hle B (List.mem_append_right _ hB)
  have hokF : ∀ l ∈ (frontLines c a k).flatMap (cuts N), l ≠ [] := fun l hl =>
    (hok (.line l) (List.mem_append_left _ (List.mem_map_of_mem hl))).2
  have hmt := hm.mergetag
  rw [mergeTags_front] at hmt
  obtain ⟨bs2, hL2, hok2, hle2, hmt2, hp2, hs2, hclean, hafter⟩ := lblocks_mergetags_cuts hN hL1 hok1 hle1 hmt hmobj
  have hsg2 : signatures (((frontLines c a k).flatMap (cuts N)).map Block.line ++ bs1) = signatures bs2 := by
    rw [signatures_front, hs2]
  -- the pieces of unknown lines begin with no known word
  have hothPiece : ∀ l ∈ c.other.flatMap (cuts N), ∀ w ∈ knownHeaders, ¬ w <+: l := by
    intro l hl w hw hp
    obtain ⟨x, hx, hl⟩ := List.mem_flatMap.1 hl
    have hxl := hothLe x hx
    obtain ⟨f, gs, e, h1, _, _, _, _, _, _, h4, h5⟩ := cuts_shape (N := N) (by omega) (l := x) (by omega)
    rw [e] at hl
    rcases List.mem_cons.1 hl with rfl | hl
    · exact (hoth x hx).2 w hw (hp.trans h1)
    · have h2 := (h4 l hl).1
      have h3 := hp.length_le
      have := known_long hw
      omega
  have key : plainLines bs2 = c.other.flatMap (cuts N) ∧
      ∀ g, c.signature = some g → (linesOf g).flatMap (cuts N) = linesOf g := by
    cases hg : c.signature with
    | none =>
      have h1 := hm.signature.2
      rw [hg, hsg2] at h1
      have h2 : signatures bs2 = [] := by
        cases h : signatures bs2 with
        | nil => rfl
        | cons x xs => rw [h] at h1; simp [List.getLast?_cons] at h1
      rw [hg] at hL2
      exact ⟨lblocks_plain hL2 hmt2 h2, by simp⟩
    | some g =>
      obtain ⟨gl, rfl, h2, h3, _⟩ := hsig g hg
      rw [hsg2] at h2
      have h4 : linesOf (unlines gl) = gl := linesOf_unlines gl fun l hl => (h3 l hl).1
      rw [hg] at hL2
      have e1 : cuts N sigBegin = [sigBegin] := by
        rw [cuts_short (by have : sigBegin.length = 36 := by decide
                           omega)]
        decide
      have e2 : cuts N sigEnd = [sigEnd] := by
        rw [cuts_short (by have : sigEnd.length = 28 := by decide
                           omega)]
        decide
      simp only [sigLines, h4, List.flatMap_cons, List.flatMap_append, List.flatMap_nil, e1, e2, List.cons_append,
        List.append_assoc, List.nil_append] at hL2
      obtain ⟨h5, _, h6⟩ := lblocks_signed_total hL2 hok2 hmt2 h2 (cutAll_total hN2 gl)
        (fun l hl => hothPiece l hl _ (by decide))
      refine ⟨h6, ?_⟩
      intro g' hg'
      obtain rfl := (Option.some.inj hg')
      rw [h4]
      exact h5
  obtain ⟨hplain2, hsigCut⟩ := key
  -- unknown lines are short
  have hothShort : ∀ l ∈ c.other, l.length < N := by
    intro l hl
    refine Nat.lt_of_le_of_ne (hothLe l hl) fun he => ?_
    obtain ⟨f, gs, e, _, _, _, _, _, h2, _⟩ := cuts_shape (N := N) (by omega) (l := l) (by omega)
    have : [] ∈ plainLines bs2 := by
      rw [hplain2]
      exact List.mem_flatMap.2 ⟨l, hl, by rw [e, h2 he]; simp⟩
    exact (hok2 _ (mem_plainLines this)).2 rfl
  rw [cutAll_short hothShort] at hplain2 hothPiece
  have hother := hm.other
  rw [plainLines_front, hp2, hplain2, List.filter_append] at hother
  have hkeep : (c.other.map trimCR).filter (fun l => knownHeaders.all fun w => !w.isPrefixOf l) =
      c.other.map trimCR := by
    refine List.filter_eq_self.2 fun l hl => List.all_eq_true.2 fun w hw => ?_
    cases h : w.isPrefixOf l with
    | false => rfl
    | true => exact absurd (List.isPrefixOf_iff_prefix.1 h) (hothPiece l hl w hw)
  rw [hkeep] at hother
  have hfront : ((frontLines c a k).flatMap (cuts N)).filter (fun l => knownHeaders.all fun w => !w.isPrefixOf l) = [] := by
    have := congrArg List.length hother
    simp only [List.length_append, List.length_map] at this
    exact List.eq_nil_of_length_eq_zero (by omega)
  rw [hfront, List.nil_append] at hother
  have hotherTrim : c.other.map trimCR = c.other := hother.symm
  rw [hotherTrim] at hplain2
  -- so are the lines in front
  have hfrontShort : ∀ l ∈ frontLines c a k, l.length < N := by
    intro l hl
    apply Classical.byContradiction
    intro hs
    have hl1 := hfrontLe l hl
    obtain ⟨f, gs, e, _, _, _, _, _, h2, h3, h4, _⟩ := cuts_shape (N := N) (by omega) hl1
    rcases Nat.lt_or_ge N l.length with hlt | hge
    · obtain ⟨g, rfl⟩ := h3 (by omega)
      have hg : g ∈ (frontLines c a k).flatMap (cuts N) := List.mem_flatMap.2 ⟨l, hl, by rw [e]; simp⟩
      refine absurd (List.mem_filter.2 ⟨hg, List.all_eq_true.2 fun w hw => ?_⟩) (by rw [hfront]; simp)
      cases h : w.isPrefixOf g with
      | false => rfl
      | true =>
        have h5 := (List.isPrefixOf_iff_prefix.1 h).length_le
        have h6 := (h4 g (by simp)).1
        have := known_long hw
        omega
    · exact hokF [] (List.mem_flatMap.2 ⟨l, hl, by rw [e, h2 (by omega)]; simp⟩) rfl
  rw [cutAll_short hfrontShort] at hm
  -- author, committer, encoding
  have hall : plainLines (((frontLines c a k).map trimCR).map Block.line ++ bs1) =
      (frontLines c a k).map trimCR ++ c.other := by rw [plainLines_front, hp2, hplain2]
  obtain ⟨f1, f2, f3⟩ := front_lines c a k c.other (by
    intro l hl w hw
    refine (hoth l hl).2 w ?_
    simp only [frontWords, List.mem_cons, List.not_mem_nil, or_false] at hw
    rcases hw with rfl | rfl | rfl | rfl | rfl <;> decide)
  have hau := hm.author
  have hco := hm.committer
  have hen := hm.encoding
  have htr := hm.tree
  rw [hall] at hau hco hen htr
  rw [f1] at hau
  rw [f2] at hco
  have onePerson : ∀ (w : Bytes) (p : PersonInfo), CR ∉ w → SP ∉ w →
      (∃ ps, Pairs PersonRead [w ++ b!" " ++ trimCR (personText p)] ps ∧ some p = ps.getLast?) →
      (w ++ b!" " ++ personText p).getLast? ≠ some CR ∧ PersonOk p := by
    rintro w p hw hsp ⟨ps, h1, h2⟩
    match ps, h1, h2 with
    | [q], h1, h2 =>
      simp only [List.getLast?_singleton, Option.some.injEq] at h2
      subst h2
      have h3 := h1.1
      rw [← trimCR_append (w ++ b!" ") (personText p) (by simp; decide)] at h3
      have := person_exact (w := w) (p := p) hw hsp (by simpa using h3)
      simpa using this
  obtain ⟨hacr, haok⟩ := onePerson b!"author" a (by decide) (by decide) (ha ▸ hau)
  obtain ⟨hkcr, hkok⟩ := onePerson b!"committer" k (by decide) (by decide) (hk ▸ hco)
  have hfits : ∀ (M : Nat), ∀ l ∈ headerLines c a k, l.getLast? ≠ some CR → l.length < M → HeaderLine M l :=
    fun M l hl hcr hs => ⟨hLF l hl, hcr, hs⟩
  refine ⟨a, k, ?_⟩
  exact
    { tree := front_tree htree htr
      parents := hpar
      authorIs := ha
      authorOk := haok
      authorLine := hfits N _ (by simp [headerLines, frontLines]) hacr (hfrontShort _ (by simp [frontLines]))
      committerIs := hk
      committerOk := hkok
      committerLine := hfits N _ (by simp [headerLines, frontLines]) hkcr (hfrontShort _ (by simp [frontLines]))
      encoding := by
        intro e he
        refine hfits N _ (by simp [headerLines, frontLines, he]) ?_ (hfrontShort _ (by simp [frontLines, he]))
        rw [he] at f3 hen
        simp only [behind, f3, Option.map_some, Option.toList_some, List.map_cons, List.map_nil,
          List.getLast?_singleton, Option.some.injEq] at hen
        have hen : e = trimCR e := by simpa using hen
        refine (trimCR_eq_iff _).1 ?_
        rw [trimCR_append _ _ (by decide), ← hen]
      mergetag := by
        intro t ht
        obtain ⟨h1, h2, h3⟩ := hclean t ht
        have hmem : ∀ l ∈ mergeLines t, l ∈ headerLines c a k := by
          intro l hl
          simp only [headerLines, List.mem_append, List.mem_flatMap]
          exact .inr (.inl ⟨t, ht, hl⟩)
        have hl : ∀ l ∈ [b!" type " ++ t.typ, b!" tag " ++ t.tag, b!" tagger " ++ personText t.tagger],
            l ∈ mergeLines t → HeaderLine (N + 1) l := fun l hl hl' =>
          hfits (N + 1) l (hmem l hl') (h1 l hl).2 (Nat.lt_succ_of_le (h1 l hl).1)
        refine ⟨hmobj t ht, hl _ (by simp) (by simp [mergeLines]), hl _ (by simp) (by simp [mergeLines]), h3,
          hl _ (by simp) (by simp [mergeLines]), ?_⟩
        obtain ⟨ls, h4, h5⟩ := hmsg t ht
        have e : linesOf t.message = ls := by rw [h4, linesOf_unlines ls fun l hl => (h5 l hl).1]
        refine ⟨ls, h4, fun l hl' => ⟨(h5 l hl').2, ?_⟩⟩
        have h6 := h2 l (by rw [e]; exact hl')
        exact hfits N l (hmem l (by simp [mergeLines, e, hl'])) ((trimCR_eq_iff l).1 h6.2) h6.1
      signature := by
        intro g hg
        have h0 := hsigCut g hg
        obtain ⟨gl, rfl, _, h3, l, hl, h4⟩ := hsig g hg
        have h5 : linesOf (unlines gl) = gl := linesOf_unlines gl fun l hl => (h3 l hl).1
        rw [h5] at h0
        cases gl with
        | nil => simp at hl
        | cons x ls =>
          simp only [List.head?_cons, Option.some.injEq] at hl
          subst hl
          refine ⟨x, ls, rfl, ?_, fun y hy => (h3 y (by simp [hy])).2, h4⟩
          intro y hy
          have h6 := cutAll_same hN2 h0 y hy
          refine hfits N y ?_ ((trimCR_eq_iff y).1 h6.2) h6.1
          simp only [headerLines, List.mem_append, hg, sigLines, h5]
          exact .inr (.inr (.inl (by simp only [List.mem_cons, List.mem_append] at hy ⊢; exact .inr (.inl hy))))
      other := by
        intro l hl
        refine ⟨hfits N l ?_ ((trimCR_eq_iff l).1 (trim_map_eq hotherTrim l hl)) (hothShort l hl), (hoth l hl).1.2,
          (hoth l hl).2⟩
        simp [headerLines, hl]
      afterTag := by
        intro hne hg l hl
        refine hafter hne l ?_
        rw [hg, cutAll_short hothShort, hotherTrim]
        simpa [sigLines] using hl }

/-- A line without CR at its end that does not exceed the buffer is read as it is,
followed by an empty one if it fills the buffer. -/
theorem cuts_clean {N : Nat} (hN : 4096 ≤ N) {l : Bytes} (h : HeaderLine (N + 1) l) :
    ∃ gs, cuts N l = l :: gs ∧ ∀ g ∈ gs, g = [] := by
  by_cases hs : l.length < N
  · exact ⟨[], by rw [cuts_short hs, trimCR_of h.noCR], by simp⟩
  · have h1 := h.short
    obtain ⟨f, r, e, hc, hf⟩ := cuts_long (N := N) (by omega) (Nat.le_of_not_lt hs)
    have hl := congrArg List.length e
    rw [List.length_append] at hl
    rcases hf with ⟨hf, _⟩ | ⟨hf, r', rfl⟩
    · obtain rfl : r = [] := List.eq_nil_of_length_eq_zero (by omega)
      rw [List.append_nil] at e
      subst e
      exact ⟨_, hc, by rw [cuts_short (by simp; omega)]; simp [trimCR_nil]⟩
    · exfalso
      simp only [List.length_cons] at hl
      obtain rfl : r' = [] := List.eq_nil_of_length_eq_zero (by omega)
      apply h.noCR
      rw [e]
      simp

/-- The block of a merge tag that fits. -/
theorem mergeFits_block {N : Nat} (hN : 4096 ≤ N) {t : Tag} (h : MergeFits N t) {R : List Bytes} {bs : List Block}
    (hR : ∀ y, R.head? = some y → y.head? ≠ some SP) (hb : LBlocks R bs) :
    ∃ x ls ms, LBlocks ((mergeLines t).flatMap (cuts N) ++ R) (.merge x ls (some ms) :: bs) ∧
      MergeMeans (x, ls, some ms) t := by
  obtain ⟨ms, hms, hmsok⟩ := h.message
  obtain ⟨gs1, e1, g1⟩ := cuts_clean hN h.typ
  obtain ⟨gs2, e2, g2⟩ := cuts_clean hN h.tag
  obtain ⟨gs3, e3, g3⟩ := cuts_clean hN h.taggerLine
  have b4 := hex_line hN b!"mergetag object " t.object (by decide) (by decide) (by decide) (.inl h.object)
  have e5 : linesOf t.message = ms := by rw [hms, linesOf_unlines ms fun l hl => (hmsok l hl).2.noLF]
  have e6 : ms.flatMap (cuts N) = ms := by
    rw [cutAll_short fun l hl => (hmsok l hl).2.short]
    conv => rhs; rw [← List.map_id ms]
    exact List.map_congr_left fun l hl => trimCR_of (hmsok l hl).2.noCR
  have e : (mergeLines t).flatMap (cuts N) ++ R = (b!"mergetag object " ++ hex (digest t.object)) ::
      (((b!" type " ++ t.typ) :: gs1 ++ ((b!" tag " ++ t.tag) :: gs2 ++ ((b!" tagger " ++ personText t.tagger) :: gs3)))
        ++ b!" " :: (ms ++ R)) := by
    have k5 : cuts N b!" " = [b!" "] := by
      rw [cuts_short (by simp; omega)]; rfl
    simp only [mergeLines, List.flatMap_append, List.flatMap_cons, List.flatMap_nil, e1, e2, e3, k5,
      cuts_short b4.short, trimCR_of b4.noCR, e5, e6]
    simp
  rw [e]
  refine ⟨_, _, _, .merge _ _ ms _ _ ?_ (fun y hy => (hmsok y hy).1) hR hb, ?_⟩
  · intro y hy
    simp only [List.mem_append, List.mem_cons] at hy
    rcases hy with (rfl | hy) | (rfl | hy) | rfl | hy
    · simp
    · rw [g1 y hy]; simp
    · simp
    · rw [g2 y hy]; simp
    · simp
    · rw [g3 y hy]; simp
  · have none_of : ∀ (w : Bytes) (gs : List Bytes), w ≠ [] → (∀ g ∈ gs, g = []) → linesWith w gs = [] := by
      intro w gs hw hg
      refine List.filter_eq_nil_iff.2 fun g hg' hp => ?_
      rw [hg g hg'] at hp
      exact hw (List.prefix_nil.1 (List.isPrefixOf_iff_prefix.1 hp))
    have split : ∀ w : Bytes, w ≠ [] → ∀ f1 f2 f3 : Bytes, linesWith w (f1 :: gs1 ++ (f2 :: gs2 ++ (f3 :: gs3))) =
        linesWith w [f1] ++ (linesWith w [f2] ++ linesWith w [f3]) := by
      intro w hw f1 f2 f3
      have con : ∀ (f : Bytes) (ys : List Bytes), linesWith w (f :: ys) = linesWith w [f] ++ linesWith w ys := by
        intro f ys; exact linesWith_append w [f] ys
      rw [linesWith_append, linesWith_append, con f1, con f2, con f3, none_of w gs1 hw g1, none_of w gs2 hw g2,
        none_of w gs3 hw g3]
      simp
    constructor
    · exact refLink_hex h.object
    · rw [behind, split _ (by decide)]
      simp [linesWith]
    · rw [behind, split _ (by decide)]
      simp [linesWith]
    · rw [split _ (by decide)]
      refine ⟨[t.tagger], ?_, rfl⟩
      simp [linesWith]
      exact ⟨personRead_text (w := b!"tagger") (by decide) h.tagger, trivial⟩
    · exact hms

theorem mergeFits_blocks {N : Nat} (hN : 4096 ≤ N) {ts : List Tag} (h : ∀ t ∈ ts, MergeFits N t) {R : List Bytes}
    {bs : List Block} (hR : ts ≠ [] → ∀ y, R.head? = some y → y.head? ≠ some SP) (hb : LBlocks R bs) :
    ∃ ms : List (Bytes × List Bytes × List Bytes),
      LBlocks ((ts.flatMap mergeLines).flatMap (cuts N) ++ R) (ms.map (fun x => .merge x.1 x.2.1 (some x.2.2)) ++ bs) ∧
      Pairs MergeMeans (ms.map fun x => (x.1, x.2.1, some x.2.2)) ts := by
  induction ts with
  | nil => exact ⟨[], hb, trivial⟩
  | cons t ts ih =>
    obtain ⟨ms, h1, h2⟩ := ih (fun t ht => h t (by simp [ht])) (fun _ => hR (by simp))
    obtain ⟨x, ls, m, h3, h4⟩ := mergeFits_block hN (h t (by simp)) (R := (ts.flatMap mergeLines).flatMap (cuts N) ++ R)
      (by
        cases ts with
        | nil => exact hR (by simp)
        | cons t' ts =>
          intro y hy
          have b4 := hex_line hN b!"mergetag object " t'.object (by decide) (by decide) (by decide)
            (.inl (h t' (by simp)).object)
          have e1 : mergeLines t' = (b!"mergetag object " ++ hex (digest t'.object)) :: (mergeLines t').tail := rfl
          rw [List.flatMap_cons, e1, List.cons_append, List.flatMap_cons, cuts_short b4.short, trimCR_of b4.noCR,
            List.append_assoc, List.cons_append, List.head?_cons, Option.some.injEq] at hy
          rw [← hy]
          simp; decide) h1
    refine ⟨(x, ls, m) :: ms, ?_, h4, h2⟩
    rw [List.flatMap_cons, List.flatMap_append, List.append_assoc]
    exact h3

theorem mergeTags_merge (ms : List (Bytes × List Bytes × List Bytes)) (bs : List Block) :
    mergeTags (ms.map (fun x => Block.merge x.1 x.2.1 (some x.2.2)) ++ bs) =
      ms.map (fun x => (x.1, x.2.1, some x.2.2)) ++ mergeTags bs := by
  induction ms with
  | nil => rfl
  | cons m ms ih =>
    simp [mergeTags] at ih ⊢
    exact ih

theorem plainLines_merge (ms : List (Bytes × List Bytes × List Bytes)) (bs : List Block) :
    plainLines (ms.map (fun x => Block.merge x.1 x.2.1 (some x.2.2)) ++ bs) = plainLines bs := by
  induction ms with
  | nil => rfl
  | cons m ms ih => exact ih

theorem signatures_merge (ms : List (Bytes × List Bytes × List Bytes)) (bs : List Block) :
    signatures (ms.map (fun x => Block.merge x.1 x.2.1 (some x.2.2)) ++ bs) = signatures bs := by
  induction ms with
  | nil => rfl
  | cons m ms ih => exact ih

theorem sizeField_decimal (n : Nat) (h : n < 2 ^ 63) : SizeField (decimal n) n :=
  ⟨nul_notin_decimal n, canonical_signed (decimal_canonical n), by omega, by omega⟩

theorem fits_survives (N : Nat) (hN : 4096 ≤ N) (c : Commit) (a k : PersonInfo) (h : CommitFits N c a k)
    (hlen : (commitBody c a k).length < 2 ^ 63) :
    ∃ out, encObj (.commit c) = .ok out ∧ parseObject (σ := Stream) ⟨out, .eof, N⟩ = .ok (.commit c) := by
  have hN2 : 2 ≤ N := by omega
  have hok0 : CommitOk N { c with mergetag := [] } a k :=
    { tree := h.tree, parents := h.parents, authorIs := h.authorIs, authorOk := h.authorOk, authorLine := h.authorLine,
      committerIs := h.committerIs, committerOk := h.committerOk, committerLine := h.committerLine,
      encoding := h.encoding, mergetag := by simp, signature := h.signature, other := h.other, afterTag := by simp }
  obtain ⟨out0, henc0, _, hdec0⟩ := commit_roundtrip N hN _ a k hok0 (by
    refine Nat.lt_of_le_of_lt ?_ hlen
    simp [commitBody])
  obtain ⟨_, d0, z0, body0, bs0, m0, hd0, hrest0, hb0, hm0⟩ := (commit_accepts ⟨out0, .eof, N⟩ hN2 _).1 hdec0
  simp only at hrest0 hb0
  have hsigL : ∀ g, c.signature = some g → IsLines g := by
    intro g hg
    obtain ⟨l, ls, rfl, h1, _⟩ := h.signature g hg
    exact ⟨_, rfl, fun x hx => (h1 x hx).noLF⟩
  have hmsgL : ∀ t ∈ c.mergetag, IsLines t.message := by
    intro t ht
    obtain ⟨ls, h1, h2⟩ := (h.mergetag t ht).message
    exact ⟨ls, h1, fun x hx => (h2 x hx).2.noLF⟩
  -- the commit without its merge tags
  have ht0 : encObj (.commit { c with mergetag := [] }) = _ :=
    encCommit_text { c with mergetag := [] } a k (.inl h.tree) h.parents h.authorIs h.committerIs (by simp)
  rw [ht0] at henc0
  obtain rfl := Res.ok.inj henc0
  have hbody := withHeader_body (w := b!"commit") (body' := body0) hd0.1 (hrest0.trans (by simp))
  subst hbody
  rw [commitBody_lines { c with mergetag := [] } a k (by simp) hsigL] at hb0
  have hfront : ∀ l ∈ frontLines c a k, HeaderLine N l := by
    intro l hl
    simp only [frontLines, List.mem_append, List.mem_cons, List.not_mem_nil, or_false, List.mem_map,
      Option.mem_toList, Option.map_eq_some_iff] at hl
    rcases hl with ((rfl | ⟨p, hp, rfl⟩) | rfl | rfl) | ⟨e, he, rfl⟩
    · exact hex_line hN _ _ (by decide) (by decide) (by decide) (.inl h.tree)
    · exact hex_line hN _ _ (by decide) (by decide) (by decide) (.inl (h.parents p hp))
    · exact h.authorLine
    · exact h.committerLine
    · exact h.encoding e he
  have hrear : ∀ l ∈ sigLines c.signature ++ c.other, HeaderLine N l := by
    intro l hl
    rcases List.mem_append.1 hl with hl | hl
    · cases hg : c.signature with
      | none => rw [hg] at hl; simp [sigLines] at hl
      | some g =>
        rw [hg] at hl
        simp only [sigLines, List.mem_cons, List.mem_append, List.not_mem_nil, or_false] at hl
        rcases hl with rfl | hl | rfl
        · exact ⟨by decide, by decide, by have : sigBegin.length = 36 := by decide
                                          omega⟩
        · obtain ⟨x, ls, rfl, h1, _⟩ := h.signature g hg
          rw [linesOf_unlines _ fun y hy => (h1 y hy).noLF] at hl
          exact h1 l hl
        · exact ⟨by decide, by decide, by have : sigEnd.length = 28 := by decide
                                          omega⟩
    · exact (h.other l hl).line
  have hLF0 : ∀ l ∈ headerLines { c with mergetag := [] } a k, LF ∉ l := by
    intro l hl
    rcases List.mem_append.1 hl with hl | hl
    · exact (hfront l hl).noLF
    · exact (hrear l (by simpa using hl)).noLF
  have hL0 := blocks_pieces hN2 hb0 _ _ (pieces_all hN2 c.message _ hLF0) hm0.message.symm
  have e0 : (headerLines { c with mergetag := [] } a k).flatMap (cuts N) =
      (frontLines c a k).map trimCR ++ (sigLines c.signature ++ c.other).flatMap (cuts N) := by
    show (frontLines c a k ++ ([] ++ (sigLines c.signature ++ c.other))).flatMap (cuts N) = _
    rw [List.nil_append, List.flatMap_append, cutAll_short fun l hl => (hfront l hl).short]
  rw [e0] at hL0
  obtain ⟨bs1, rfl, hL1⟩ := lblocks_front hL0
    (by
      intro l hl hp
      obtain ⟨w, hw, h⟩ := front_word hl
      simp only [frontWords, List.mem_cons, List.not_mem_nil, or_false] at hw
      rcases prefix_clash hp h with h' | h' <;> rcases hw with rfl | rfl | rfl | rfl | rfl <;> revert h' <;> decide)
    (by
      intro l hl hp
      obtain ⟨w, hw, h⟩ := front_word hl
      simp only [frontWords, List.mem_cons, List.not_mem_nil, or_false] at hw
      rcases prefix_clash hp h with h' | h' <;> rcases hw with rfl | rfl | rfl | rfl | rfl <;> revert h' <;> decide)
  have hmt1 : mergeTags bs1 = [] := by
    have := pairs_length hm0.mergetag
    rw [mergeTags_front] at this
    exact List.eq_nil_of_length_eq_zero this
  -- the merge tags between
  obtain ⟨ms, hL2, hpairs⟩ := mergeFits_blocks hN h.mergetag (R := (sigLines c.signature ++ c.other).flatMap (cuts N))
    (by
      intro hne y hy
      have e : (sigLines c.signature ++ c.other).flatMap (cuts N) = sigLines c.signature ++ c.other := by
        rw [cutAll_short fun l hl => (hrear l hl).short]
        conv => rhs; rw [← List.map_id (sigLines c.signature ++ c.other)]
        exact List.map_congr_left fun l hl => trimCR_of (hrear l hl).noCR
      rw [e] at hy
      cases hg : c.signature with
      | none =>
        rw [hg] at hy
        exact h.afterTag hne hg y (by simpa [sigLines] using hy)
      | some g =>
        rw [hg] at hy
        simp only [sigLines, List.cons_append, List.head?_cons, Option.some.injEq] at hy
        rw [← hy]
        decide) hL1
  have hL : LBlocks ((headerLines c a k).flatMap (cuts N)) (((frontLines c a k).map trimCR).map .line ++
      (ms.map (fun x => .merge x.1 x.2.1 (some x.2.2)) ++ bs1)) := by
    have e : (headerLines c a k).flatMap (cuts N) = (frontLines c a k).map trimCR ++
        ((c.mergetag.flatMap mergeLines).flatMap (cuts N) ++ (sigLines c.signature ++ c.other).flatMap (cuts N)) := by
      rw [headerLines, List.flatMap_append, List.flatMap_append, cutAll_short fun l hl => (hfront l hl).short]
    rw [e]
    have lines : ∀ A : List Bytes, (∀ l ∈ A, ∃ w ∈ frontWords, w <+: l) → ∀ {L bs}, LBlocks L bs →
        LBlocks (A ++ L) (A.map .line ++ bs) := by
      intro A
      induction A with
      | nil => intro _ L bs h; exact h
      | cons l A ih =>
        intro hA L bs hL
        obtain ⟨w, hw, h⟩ := hA l (by simp)
        refine .line l _ _ ?_ ?_ ?_ (ih (fun l hl => hA l (by simp [hl])) hL)
        · rintro rfl
          rw [List.prefix_nil.1 h] at hw
          revert hw
          decide
        · intro hp
          simp only [frontWords, List.mem_cons, List.not_mem_nil, or_false] at hw
          rcases prefix_clash hp h with h' | h' <;> rcases hw with rfl | rfl | rfl | rfl | rfl <;> revert h' <;> decide
        · intro hp
          simp only [frontWords, List.mem_cons, List.not_mem_nil, or_false] at hw
          rcases prefix_clash hp h with h' | h' <;> rcases hw with rfl | rfl | rfl | rfl | rfl <;> revert h' <;> decide
    exact lines _ (fun l hl => front_word hl) hL2
  have hLF : ∀ l ∈ headerLines c a k, LF ∉ l := by
    intro l hl
    rcases List.mem_append.1 hl with hl | hl
    · exact (hfront l hl).noLF
    · rcases List.mem_append.1 hl with hl | hl
      · obtain ⟨t, ht, hl⟩ := List.mem_flatMap.1 hl
        have hf := h.mergetag t ht
        simp only [mergeLines, List.mem_append, List.mem_cons, List.not_mem_nil, or_false] at hl
        rcases hl with (rfl | rfl | rfl | rfl | rfl) | hl
        · exact (hex_line hN _ _ (by decide) (by decide) (by decide) (.inl hf.object)).noLF
        · exact hf.typ.noLF
        · exact hf.tag.noLF
        · exact hf.taggerLine.noLF
        · decide
        · exact ((isLines_iff _).1 (hmsgL t ht)).2 l hl
      · exact (hrear l hl).noLF
  have hB := pieces_blocks hN2 hL _ c.message (by
    intro x ls hx
    simp only [List.mem_append, List.mem_map] at hx
    rcases hx with ⟨_, _, hx⟩ | ⟨_, _, hx⟩ | hx
    · cases hx
    · cases hx
    · have : (x, ls, none) ∈ mergeTags bs1 := List.mem_filterMap.2 ⟨_, hx, rfl⟩
      rw [hmt1] at this
      simp at this) (pieces_all hN2 c.message _ hLF)
  refine ⟨_, encCommit_text c a k (.inl h.tree) h.parents h.authorIs h.committerIs
    (fun t ht => (h.mergetag t ht).object), ?_⟩
  refine (commit_accepts ⟨_, .eof, N⟩ hN2 c).2 ⟨rfl, decimal _, _, _, _, some c.message, sizeField_decimal _ hlen,
    by simp [withHeader]; rfl, by rw [commitBody_lines c a k hmsgL hsigL]; exact hB, ?_⟩
  have ep : plainLines (((frontLines c a k).map trimCR).map Block.line ++
      (ms.map (fun x => Block.merge x.1 x.2.1 (some x.2.2)) ++ bs1)) =
      plainLines (((frontLines c a k).map trimCR).map Block.line ++ bs1) := by
    rw [plainLines_front, plainLines_front, plainLines_merge]
  have es : signatures (((frontLines c a k).map trimCR).map Block.line ++
      (ms.map (fun x => Block.merge x.1 x.2.1 (some x.2.2)) ++ bs1)) =
      signatures (((frontLines c a k).map trimCR).map Block.line ++ bs1) := by
    rw [signatures_front, signatures_front, signatures_merge]
  constructor
  · rw [ep]; exact hm0.tree
  · rw [ep]; exact hm0.parents
  · rw [ep]; exact hm0.author
  · rw [ep]; exact hm0.committer
  · rw [ep]; exact hm0.encoding
  · rw [mergeTags_front, mergeTags_merge, hmt1, List.append_nil]; exact hpairs
  · rw [es]; exact hm0.signature
  · rw [ep]; exact hm0.other
  · rfl

/-- A commit is encoded and read back as it was exactly if it fits, however long its
lines are. -/
theorem commit_survives_exact (N : Nat) (hN : 4096 ≤ N) (c : Commit)
    (hlen : ∀ a k, c.author = some a → c.committer = some k → (commitBody c a k).length < 2 ^ 63) :
    (∃ out, encObj (.commit c) = .ok out ∧ parseObject (σ := Stream) ⟨out, .eof, N⟩ = .ok (.commit c)) ↔
      ∃ a k, CommitFits N c a k :=
  ⟨commit_survives_fits N hN c, fun ⟨a, k, h⟩ => fits_survives N hN c a k h (hlen a k h.authorIs h.committerIs)⟩

/-- What fits with room to spare fits. -/
theorem commitOk_fits {N : Nat} {c : Commit} {a k : PersonInfo} (h : CommitOk N c a k) : CommitFits N c a k where
  tree := h.tree
  parents := h.parents
  authorIs := h.authorIs
  authorOk := h.authorOk
  authorLine := h.authorLine
  committerIs := h.committerIs
  committerOk := h.committerOk
  committerLine := h.committerLine
  encoding := h.encoding
  mergetag := fun t ht => by
    have := h.mergetag t ht
    have wide : ∀ {l}, HeaderLine N l → HeaderLine (N + 1) l := fun h => ⟨h.noLF, h.noCR, Nat.lt_succ_of_lt h.short⟩
    exact ⟨this.object, wide this.typ, wide this.tag, this.tagger, wide this.taggerLine, this.message⟩
  signature := h.signature
  other := h.other
  afterTag := h.afterTag

/-- A merge tag whose name fills the buffer. -/
def longMerge : Tag := { sampleMerge with tag := List.replicate 4091 65 }

theorem longMerge_fits : MergeFits 4096 longMerge ∧ ¬ MergeTagOk 4096 longMerge := by
  refine ⟨⟨⟨_, by decide, rfl⟩, ⟨by decide, by decide, by decide⟩, ⟨by decide +kernel, by decide +kernel,
    by decide +kernel⟩, samplePerson_ok, ⟨by decide, by decide, by decide⟩, (sampleMerge_ok 4096 (by omega)).message⟩,
    fun h => ?_⟩
  exact absurd h.tag.short (by decide +kernel)

/-- A commit with such a merge tag survives. -/
example : (∃ a k, CommitFits 4096 { sampleCommit with mergetag := [longMerge, sampleMerge] } a k) ∧
    ∀ a k, ¬ CommitOk 4096 { sampleCommit with mergetag := [longMerge, sampleMerge] } a k := by
  have h := commitOk_fits (sampleCommit_ok 4096 (by omega))
  refine ⟨⟨_, _, { h with mergetag := ?_, afterTag := ?_ }⟩, fun a k h' => ?_⟩
  · intro t ht
    simp only [List.mem_cons, List.not_mem_nil, or_false] at ht
    rcases ht with rfl | rfl
    · exact longMerge_fits.1
    · exact h.mergetag _ (by simp [sampleCommit])
  · intro _ h; cases h
  · exact longMerge_fits.2 (h'.mergetag _ (by simp))

/-- With an encoding line of 4096 bytes it does not. -/
example : ¬ ∃ a k, CommitFits 4096 { sampleCommit with encoding := some (List.replicate 4087 65) } a k := by
  rintro ⟨a, k, h⟩
  exact absurd (h.encoding _ rfl).short (by decide +kernel)

/-! ## Decoded objects -/

/-- The encoding of a decoded object decodes to the same object exactly if the object
fits. -/
theorem settle_fits (s : Stream) (hN : 2 ≤ s.bufsz) (o : Obj) (h : parseObject s = .ok o) (M : Nat) (hM : 4096 ≤ M)
    (y : Bytes) (hy : encObj o = .ok y) (hlen : y.length < 2 ^ 63) :
    (∃ o', parseObject (σ := Stream) ⟨y, .eof, M⟩ = .ok o' ∧ Same o' o) ↔ ObjFits M o := by
  cases o with
  | blob b => exact settle_exact s hN _ h M hM trivial y hy hlen
  | tree t => exact settle_exact s hN _ h M hM trivial y hy hlen
  | tag t =>
    refine Iff.trans ?_ (tag_survives_exact M hM t)
    constructor
    · rintro ⟨o', h1, h2⟩
      have h2 : o' = .tag t := by cases o' <;> first | exact h2 | cases h2
      subst h2
      exact ⟨y, hy, h1⟩
    · rintro ⟨y', h1, h2⟩
      rw [hy] at h1
      obtain rfl := Res.ok.inj h1
      exact ⟨_, h2, rfl⟩
  | commit c =>
    refine Iff.trans ?_ (commit_survives_exact M hM c ?_)
    · constructor
      · rintro ⟨o', h1, h2⟩
        have h2 : o' = .commit c := by cases o' <;> first | exact h2 | cases h2
        subst h2
        exact ⟨y, hy, h1⟩
      · rintro ⟨y', h1, h2⟩
        rw [hy] at h1
        obtain rfl := Res.ok.inj h1
        exact ⟨_, h2, rfl⟩
    · intro a k ha hk
      have hs := decoded_commit_shape s hN c h
      have : encObj (.commit c) = _ := encCommit_text c a k (hs.tree.elim .inr .inl) hs.parents ha hk
        (fun t ht => (hs.mergetag t ht).object)
      rw [this] at hy
      rw [← Res.ok.inj hy] at hlen
      exact Nat.lt_of_le_of_lt (withHeader_length _ _) hlen

/-- A tag without an object does not fit. -/
example : ∃ y, parseObject (σ := Stream) ⟨b!"tag 0\x00type a\ntag b\ntagger A <a> 1 +0\n", .eof, 4096⟩ =
      .ok (.tag bareTag) ∧ encObj (.tag bareTag) = .ok y ∧ y.length < 2 ^ 63 ∧ ¬ ObjFits 4096 (.tag bareTag) := by
  refine ⟨_, by decide +kernel, rfl, by decide, fun h => ?_⟩
  obtain ⟨_, _, h⟩ := TagFits.object h
  cases h

end Verif.Props
