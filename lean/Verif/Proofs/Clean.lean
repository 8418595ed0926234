import Verif.Proofs.Loops

/-!
# No panics, no exhausted fuel, no swallowed read errors
-/

namespace Verif

/-- Neither a panic nor exhausted fuel. -/
def Res.Clean {α : Type} (r : Res α) : Prop := r ≠ .panic ∧ r ≠ .err .fuel

@[simp] theorem Res.clean_ok {α : Type} (a : α) : (Res.ok a).Clean := by simp [Res.Clean]

@[simp] theorem Res.clean_err {α : Type} (e : Err) : (Res.err e : Res α).Clean ↔ e ≠ .fuel := by
  simp [Res.Clean]

theorem Res.clean_bind {α β : Type} {r : Res α} {f : α → Res β} (h : r.Clean)
    (hf : ∀ a, r = .ok a → (f a).Clean) : (r >>= f).Clean := by
  cases r with
  | ok a => exact hf a rfl
  | err e => simpa using h
  | panic => exact absurd rfl h.1

theorem hasPrefix_iff (l p : Bytes) : hasPrefix l p = true ↔ ∃ x, l = p ++ x := by
  unfold hasPrefix
  rw [List.isPrefixOf_iff_prefix]
  exact ⟨fun ⟨x, h⟩ => ⟨x, h.symm⟩, fun ⟨x, h⟩ => ⟨x, h.symm⟩⟩

@[simp] theorem hasPrefix_append (p x : Bytes) : hasPrefix (p ++ x) p = true :=
  (hasPrefix_iff _ _).2 ⟨x, rfl⟩

theorem sliceFrom_append (p x : Bytes) (n : Nat) (h : n = p.length) : sliceFrom (p ++ x) n = .ok x := by
  subst h; simp [sliceFrom]

theorem clean_sliceFrom {l p : Bytes} {n : Nat} (h : hasPrefix l p = true) (hn : n ≤ p.length) :
    (sliceFrom l n).Clean := by
  obtain ⟨x, rfl⟩ := (hasPrefix_iff _ _).1 h
  unfold sliceFrom
  rw [if_pos (by simp; omega)]
  simp

theorem clean_hexDecode (h : Bytes) : (hexDecode h).Clean := by
  refine ⟨hexDecode_ne_panic h, ?_⟩
  induction h using hexDecode.induct with
  | case1 => simp [hexDecode]
  | case2 => simp [hexDecode]
  | case3 a c cs x y hx hy r hr ih => simp [hexDecode, hx, hy, hr]
  | case4 a c cs x y hx hy e hr ih => simp [hexDecode, hx, hy, hr]; rintro rfl; exact ih hr
  | case5 a c cs x y hx hy hr ih => simp [hexDecode, hx, hy, hr]
  | case6 a c cs hno => simp [hexDecode]

theorem clean_shaToCid (b : Bytes) : (shaToCid b).Clean := by
  unfold shaToCid; split <;> simp

theorem nameLoop_ne_fuel (ps : List Bytes) (acc : Bytes) : nameLoop ps acc ≠ .err .fuel := by
  induction ps generalizing acc with
  | nil => simp [nameLoop]
  | cons p ps ih =>
    cases p with
    | nil =>
      simp only [nameLoop, List.length_nil, ne_eq, not_true_eq_false, if_false]
      split <;> exact ih _
    | cons c cs =>
      simp only [nameLoop, List.length_cons, ne_eq, Nat.add_one_ne_zero, not_false_eq_true, if_true,
        first, Res.bind_ok]
      split
      · simp
      · exact ih _

theorem emailLoop_ne_fuel (ps : List Bytes) (acc : Bytes) : emailLoop ps acc ≠ .err .fuel := by
  induction ps generalizing acc with
  | nil => simp [emailLoop]
  | cons p ps ih =>
    rw [emailLoop_cons]
    split
    · simp
    · exact ih _

theorem clean_parsePersonInfo (line : Bytes) : (parsePersonInfo line).Clean := by
  refine ⟨parsePersonInfo_ne_panic line, ?_⟩
  unfold parsePersonInfo
  simp only
  split
  · simp
  · intro h
    rcases Res.bind_eq_err.1 h with h | ⟨⟨n, r⟩, h1, h⟩
    · exact nameLoop_ne_fuel _ _ h
    rcases Res.bind_eq_err.1 h with h | ⟨nm, h2, h⟩
    · simp only at h
      split at h
      · unfold chop at h; simp_all
      · simp at h
    rcases Res.bind_eq_err.1 h with h | ⟨⟨em, r2⟩, h3, h⟩
    · exact emailLoop_ne_fuel _ _ h
    · simp at h

theorem clean_readLine (s : Stream) (hf : s.fin ≠ .fuel) : (Stream.readLine s).Clean := by
  refine ⟨Stream.readLine_ne_panic s, fun h => ?_⟩
  exact hf ((Stream.readLine_err s _).1 h).2.symm

theorem clean_readString (d : UInt8) (s : Stream) (hf : s.fin ≠ .fuel) :
    (Stream.readString d s).Clean := by
  refine ⟨Stream.readString_ne_panic d s, fun h => ?_⟩
  exact hf ((Stream.readString_err d s _).1 h).2.symm

theorem clean_readAll (s : Stream) (hf : s.fin ≠ .fuel) : (Stream.readAll s).Clean := by
  unfold Stream.readAll; split <;> simp [hf]

theorem clean_readFull (n : Nat) (s : Stream) (hf : s.fin ≠ .fuel) : (Stream.readFull n s).Clean := by
  unfold Stream.readFull
  split
  · simp
  · split
    · split <;> simp
    · simp [hf]

theorem clean_readLimited (n : Nat) (s : Stream) (hf : s.fin ≠ .fuel) :
    (Stream.readLimited n s).Clean := by
  unfold Stream.readLimited
  split
  · simp
  · split <;> simp [hf]

theorem clean_atoi (s : Bytes) : (atoi s).Clean := by
  unfold atoi
  split
  · simp
  · split
    · simp
    · split <;> split <;> simp

theorem clean_readNum (s : Stream) (hf : s.fin ≠ .fuel) : (readNum s).Clean := by
  unfold readNum
  refine Res.clean_bind (clean_readString _ _ hf) fun ⟨x, s'⟩ h => ?_
  obtain ⟨a, rfl, _⟩ := Stream.readString_ok _ _ _ _ h
  simp only [chop_concat, Res.bind_ok]
  exact Res.clean_bind (clean_atoi a) fun n _ => by simp

theorem readNum_lt (s s' : Stream) (n : Int) (h : readNum s = .ok (n, s')) : Stream.Lt s' s := by
  unfold readNum at h
  obtain ⟨⟨x, s1⟩, h1, h⟩ := Res.bind_eq_ok.1 h
  obtain ⟨y, _, h⟩ := Res.bind_eq_ok.1 h
  obtain ⟨z, _, h⟩ := Res.bind_eq_ok.1 h
  simp only [Res.ok.injEq, Prod.mk.injEq] at h
  rw [← h.2]
  exact Stream.readString_lt _ _ _ _ h1

theorem clean_mergeMsgRun (m : Bytes) (s : Stream) (hN : 2 ≤ s.bufsz) (hf : s.fin ≠ .fuel) :
    (mergeMsgRun m s).Clean := by
  induction s using stream_induct generalizing m with
  | h s ih =>
    rw [mergeMsgRun_eq m s hN]
    have hc := clean_readLine s hf
    cases hr : Stream.readLine s with
    | err e => rw [hr] at hc; simpa using hc
    | panic => rw [hr] at hc; exact absurd rfl hc.1
    | ok p =>
      obtain ⟨l, s'⟩ := p
      have hl := Stream.readLine_lt s s' l hN hr
      simp only
      split
      · simp
      · exact ih s' hl _ (by rw [hl.bufsz]; exact hN) (by rw [hl.fin]; exact hf)

theorem clean_sigRun (m : Bytes) (s : Stream) (hN : 2 ≤ s.bufsz) (hf : s.fin ≠ .fuel) :
    (sigRun m s).Clean := by
  induction s using stream_induct generalizing m with
  | h s ih =>
    rw [sigRun_eq m s hN]
    have hc := clean_readLine s hf
    cases hr : Stream.readLine s with
    | err e => rw [hr] at hc; simpa using hc
    | panic => rw [hr] at hc; exact absurd rfl hc.1
    | ok p =>
      obtain ⟨l, s'⟩ := p
      have hl := Stream.readLine_lt s s' l hN hr
      simp only
      split
      · simp
      · exact ih s' hl _ (by rw [hl.bufsz]; exact hN) (by rw [hl.fin]; exact hf)

theorem clean_decodeGpgSig (s : Stream) (hN : 2 ≤ s.bufsz) (hf : s.fin ≠ .fuel) :
    (decodeGpgSig s).Clean := by
  rw [decodeGpgSig_eq]
  refine Res.clean_bind (clean_readLine s hf) fun ⟨l, s'⟩ h => ?_
  have hl := Stream.readLine_lt s s' l hN h
  refine Res.clean_bind ?_ fun sig _ =>
    clean_sigRun _ _ (by rw [hl.bufsz]; exact hN) (by rw [hl.fin]; exact hf)
  split
  · split <;> simp
  · simp

theorem clean_mergeTagRun (o : Tag) (s : Stream) (hN : 2 ≤ s.bufsz) (hf : s.fin ≠ .fuel) :
    (mergeTagRun o s).Clean := by
  induction s using stream_induct generalizing o with
  | h s ih =>
    rw [mergeTagRun_eq o s hN]
    have hc := clean_readLine s hf
    cases hr : Stream.readLine s with
    | err e => rw [hr] at hc; cases e <;> simp at hc ⊢
    | panic => rw [hr] at hc; exact absurd rfl hc.1
    | ok p =>
      obtain ⟨l, s'⟩ := p
      have hl := Stream.readLine_lt s s' l hN hr
      have hN' : 2 ≤ s'.bufsz := by rw [hl.bufsz]; exact hN
      have hf' : s'.fin ≠ .fuel := by rw [hl.fin]; exact hf
      have ih' := fun o => ih s' hl o hN' hf'
      simp only
      split
      · rename_i hp
        exact Res.clean_bind (clean_sliceFrom hp (by simp)) fun _ _ => ih' _
      split
      · rename_i hp
        exact Res.clean_bind (clean_sliceFrom hp (by simp)) fun _ _ => ih' _
      split
      · rename_i hp
        exact Res.clean_bind (clean_sliceFrom hp (by simp)) fun _ _ =>
          Res.clean_bind (clean_parsePersonInfo _) fun _ _ => ih' _
      split
      · exact Res.clean_bind (clean_mergeMsgRun _ _ hN' hf') fun _ _ => by simp
      · exact ih' _

theorem clean_readMergeTag (h : Bytes) (s : Stream) (hN : 2 ≤ s.bufsz) (hf : s.fin ≠ .fuel) :
    (readMergeTag h s).Clean := by
  rw [readMergeTag_eq]
  exact Res.clean_bind (clean_shaToCid _) fun _ _ => clean_mergeTagRun _ _ hN hf

theorem clean_commitLineRun (c : Commit) (line : Bytes) (s : Stream) (hN : 2 ≤ s.bufsz)
    (hf : s.fin ≠ .fuel) : (commitLineRun c line s).Clean := by
  induction s using stream_induct generalizing c line with
  | h s ih =>
    rw [commitLineRun_eq c line s hN]
    iterate 2 (
      split
      · rename_i hp
        exact Res.clean_bind (clean_sliceFrom hp (by simp)) fun _ _ =>
          Res.clean_bind (clean_hexDecode _) fun _ _ =>
            Res.clean_bind (clean_shaToCid _) fun _ _ => by simp)
    iterate 2 (
      split
      · exact Res.clean_bind (clean_parsePersonInfo _) fun _ _ => by simp)
    split
    · rename_i hp
      exact Res.clean_bind (clean_sliceFrom hp (by simp)) fun _ _ => by simp
    split
    · rename_i hp
      refine Res.clean_bind (clean_sliceFrom hp (by simp)) fun _ _ =>
        Res.clean_bind (clean_hexDecode _) fun _ _ =>
          Res.clean_bind (clean_readMergeTag _ _ hN hf) fun ⟨⟨mt, rest⟩, s'⟩ hm => ?_
      have hsub := readMergeTag_sub _ _ hN _ _ hm
      cases rest with
      | none => simp
      | some l =>
        have hlt := hsub.2 (by simp)
        exact ih s' hlt _ _ (by rw [hlt.bufsz]; exact hN) (by rw [hlt.fin]; exact hf)
    split
    · exact Res.clean_bind (clean_decodeGpgSig _ hN hf) fun _ _ => by simp
    split
    · exact Res.clean_bind (clean_readAll _ hf) fun _ _ => by simp
    · simp

theorem clean_commitRun (c : Commit) (s : Stream) (hN : 2 ≤ s.bufsz) (hf : s.fin ≠ .fuel) :
    (commitRun c s).Clean := by
  induction s using stream_induct generalizing c with
  | h s ih =>
    rw [commitRun_eq c s hN]
    have hc := clean_readLine s hf
    cases hr : Stream.readLine s with
    | err e => rw [hr] at hc; cases e <;> simp at hc ⊢
    | panic => rw [hr] at hc; exact absurd rfl hc.1
    | ok p =>
      obtain ⟨l, s'⟩ := p
      have hl := Stream.readLine_lt s s' l hN hr
      have hN' : 2 ≤ s'.bufsz := by rw [hl.bufsz]; exact hN
      have hf' : s'.fin ≠ .fuel := by rw [hl.fin]; exact hf
      simp only
      refine Res.clean_bind (clean_commitLineRun _ _ _ hN' hf') fun ⟨c', s''⟩ h => ?_
      have hs := commitLineRun_sub _ _ _ hN' _ _ h
      exact ih s'' (hs.trans_lt hl) _ (by rw [hs.bufsz]; exact hN') (by rw [hs.fin]; exact hf')

theorem clean_tagLine (o : Tag) (line : Bytes) (s : Stream) (hf : s.fin ≠ .fuel) :
    (tagLine o line s).Clean := by
  unfold tagLine
  split
  · rename_i hp
    exact Res.clean_bind (clean_sliceFrom hp (by simp)) fun _ _ =>
      Res.clean_bind (clean_hexDecode _) fun _ _ =>
        Res.clean_bind (clean_shaToCid _) fun _ _ => by simp
  split
  · rename_i hp
    exact Res.clean_bind (clean_sliceFrom hp (by simp)) fun _ _ => by simp
  split
  · exact Res.clean_bind (clean_parsePersonInfo _) fun _ _ => by simp
  split
  · rename_i hp
    exact Res.clean_bind (clean_sliceFrom hp (by simp)) fun _ _ => by simp
  split
  · exact Res.clean_bind (clean_readAll _ hf) fun _ _ => by simp
  · simp

theorem clean_tagRun (c : Tag) (s : Stream) (hN : 2 ≤ s.bufsz) (hf : s.fin ≠ .fuel) :
    (tagRun c s).Clean := by
  induction s using stream_induct generalizing c with
  | h s ih =>
    rw [tagRun_eq c s hN]
    have hc := clean_readLine s hf
    cases hr : Stream.readLine s with
    | err e => rw [hr] at hc; cases e <;> simp at hc ⊢
    | panic => rw [hr] at hc; exact absurd rfl hc.1
    | ok p =>
      obtain ⟨l, s'⟩ := p
      have hl := Stream.readLine_lt s s' l hN hr
      have hN' : 2 ≤ s'.bufsz := by rw [hl.bufsz]; exact hN
      have hf' : s'.fin ≠ .fuel := by rw [hl.fin]; exact hf
      simp only
      refine Res.clean_bind (clean_tagLine _ _ _ hf') fun ⟨c', s''⟩ h => ?_
      have hs := tagLine_sub _ _ _ _ _ h
      exact ih s'' (hs.trans_lt hl) _ (by rw [hs.bufsz]; exact hN') (by rw [hs.fin]; exact hf')

theorem clean_decodeTreeEntry (s : Stream) (hf : s.fin ≠ .fuel) : (decodeTreeEntry s).Clean := by
  unfold decodeTreeEntry
  simp only [reader_readString, reader_readFull]
  refine Res.clean_bind (clean_readString _ _ hf) fun ⟨x, s1⟩ h1 => ?_
  obtain ⟨a, rfl, _, _, hf1, _⟩ := Stream.readString_ok _ _ _ _ h1
  simp only [chop_concat, Res.bind_ok]
  have hf1' : s1.fin ≠ .fuel := by rw [hf1]; exact hf
  refine Res.clean_bind (clean_readString _ _ hf1') fun ⟨y, s2⟩ h2 => ?_
  obtain ⟨b, rfl, _, _, hf2, _⟩ := Stream.readString_ok _ _ _ _ h2
  simp only [chop_concat, Res.bind_ok]
  have hf2' : s2.fin ≠ .fuel := by rw [hf2]; exact hf1'
  refine Res.clean_bind (clean_readFull _ _ hf2') fun ⟨z, s3⟩ h3 => ?_
  exact Res.clean_bind (clean_shaToCid _) fun _ _ => by simp

theorem clean_treeAdd (t : Tree) (n : Bytes) (e : TreeEntry) : (treeAdd t n e).Clean := by
  unfold treeAdd; split <;> simp

theorem clean_treeRun (c : Tree) (s : Stream) (hf : s.fin ≠ .fuel) : (treeRun c s).Clean := by
  induction s using stream_induct generalizing c with
  | h s ih =>
    rw [treeRun_eq c s]
    have hc := clean_decodeTreeEntry s hf
    cases hr : decodeTreeEntry s with
    | err e => rw [hr] at hc; cases e <;> simp at hc ⊢
    | panic => rw [hr] at hc; exact absurd rfl hc.1
    | ok p =>
      obtain ⟨⟨n, e⟩, s'⟩ := p
      have hl := decodeTreeEntry_lt s s' _ hr
      simp only
      exact Res.clean_bind (clean_treeAdd _ _ _) fun t _ => ih s' hl _ (by rw [hl.fin]; exact hf)

theorem clean_decodeBlob (s : Stream) (hf : s.fin ≠ .fuel) : (decodeBlob s).Clean := by
  unfold decodeBlob
  refine Res.clean_bind (clean_readNum _ hf) fun ⟨n, s'⟩ h => ?_
  have hl := readNum_lt _ _ _ h
  simp only
  split
  · simp
  · refine Res.clean_bind (clean_readLimited _ _ (by rw [hl.fin]; exact hf)) fun ⟨b, _⟩ _ => ?_
    simp only
    split
    · split <;> simp
    · simp

theorem clean_decodeTree (s : Stream) (hf : s.fin ≠ .fuel) : (decodeTree s).Clean := by
  rw [decodeTree_eq]
  refine Res.clean_bind (clean_readNum _ hf) fun ⟨n, s'⟩ h => ?_
  exact clean_treeRun _ _ (by rw [(readNum_lt _ _ _ h).fin]; exact hf)

theorem clean_decodeCommit (s : Stream) (hN : 2 ≤ s.bufsz) (hf : s.fin ≠ .fuel) :
    (decodeCommit s).Clean := by
  rw [decodeCommit_eq]
  refine Res.clean_bind (clean_readNum _ hf) fun ⟨n, s'⟩ h => ?_
  have hl := readNum_lt _ _ _ h
  exact clean_commitRun _ _ (by rw [hl.bufsz]; exact hN) (by rw [hl.fin]; exact hf)

theorem clean_decodeTag (s : Stream) (hN : 2 ≤ s.bufsz) (hf : s.fin ≠ .fuel) :
    (decodeTag s).Clean := by
  rw [decodeTag_eq]
  refine Res.clean_bind (clean_readString _ _ hf) fun ⟨n, s'⟩ h => ?_
  have hl := Stream.readString_lt _ _ _ _ h
  exact clean_tagRun _ _ (by rw [hl.bufsz]; exact hN) (by rw [hl.fin]; exact hf)

theorem readType_ok (s s' : Stream) (x : Bytes) (h : readType s = .ok (x, s')) :
    Stream.Lt s' s ∧ SP ∉ x ∧ s.rest = x ++ SP :: s'.rest := by
  unfold readType at h
  simp only [reader_readString] at h
  cases hr : Stream.readString SP s with
  | err e => rw [hr] at h; cases e <;> simp at h
  | panic => rw [hr] at h; simp at h
  | ok p =>
    obtain ⟨y, s1⟩ := p
    have hl := Stream.readString_lt _ _ _ _ hr
    obtain ⟨a, rfl, ha, hrest, _⟩ := Stream.readString_ok _ _ _ _ hr
    rw [hr] at h
    simp only [chop_concat, Res.bind_ok, Res.ok.injEq, Prod.mk.injEq] at h
    rw [← h.1, ← h.2]
    exact ⟨hl, ha, hrest⟩

theorem readType_word (w r : Bytes) (e : Err) (N : Nat) (hw : SP ∉ w) :
    readType (σ := Stream) ⟨w ++ SP :: r, e, N⟩ = .ok (w, ⟨r, e, N⟩) := by
  simp [readType, Stream.readString_delim _ _ _ _ _ hw]

theorem clean_readType (s : Stream) (hf : s.fin ≠ .fuel) : (readType s).Clean := by
  unfold readType
  simp only [reader_readString]
  have hc := clean_readString SP s hf
  cases hr : Stream.readString SP s with
  | err e => rw [hr] at hc; cases e <;> simp at hc ⊢
  | panic => rw [hr] at hc; exact absurd rfl hc.1
  | ok p =>
    obtain ⟨y, s1⟩ := p
    obtain ⟨a, rfl, _⟩ := Stream.readString_ok _ _ _ _ hr
    simp

theorem clean_parseObject (s : Stream) (hN : 2 ≤ s.bufsz) (hf : s.fin ≠ .fuel) :
    (parseObject s).Clean := by
  unfold parseObject
  refine Res.clean_bind (clean_readType _ hf) fun ⟨w, s'⟩ h => ?_
  have hl := (readType_ok _ _ _ h).1
  have hN' : 2 ≤ s'.bufsz := by rw [hl.bufsz]; exact hN
  have hf' : s'.fin ≠ .fuel := by rw [hl.fin]; exact hf
  simp only
  split
  · exact Res.clean_bind (clean_decodeTree _ hf') fun _ _ => by simp
  split
  · exact Res.clean_bind (clean_decodeCommit _ hN' hf') fun _ _ => by simp
  split
  · exact Res.clean_bind (clean_decodeBlob _ hf') fun _ _ => by simp
  split
  · exact Res.clean_bind (clean_decodeTag _ hN' hf') fun _ _ => by simp
  · simp

theorem clean_decode {β : Type} (na : Sink β) (s : Stream) (hN : 2 ≤ s.bufsz) (hf : s.fin ≠ .fuel)
    (h1 : ∀ o, (na.assignNode o).Clean) (h2 : ∀ b, (na.assignBytes b).Clean) :
    (decode na s).Clean := by
  unfold decode
  refine Res.clean_bind (clean_readType _ hf) fun ⟨w, s'⟩ h => ?_
  have hl := (readType_ok _ _ _ h).1
  have hN' : 2 ≤ s'.bufsz := by rw [hl.bufsz]; exact hN
  have hf' : s'.fin ≠ .fuel := by rw [hl.fin]; exact hf
  simp only
  split
  · exact Res.clean_bind (clean_decodeTree _ hf') fun _ _ => h1 _
  split
  · exact Res.clean_bind (clean_decodeCommit _ hN' hf') fun _ _ => h1 _
  split
  · exact Res.clean_bind (clean_decodeBlob _ hf') fun _ _ => h2 _
  split
  · exact Res.clean_bind (clean_decodeTag _ hN' hf') fun _ _ => h1 _
  · simp

/-! ## read errors -/

theorem commitRun_eof (c r : Commit) (s : Stream) (hN : 2 ≤ s.bufsz) (h : commitRun c s = .ok r) :
    s.fin = .eof := by
  induction s using stream_induct generalizing c with
  | h s ih =>
    rw [commitRun_eq c s hN] at h
    cases hr : Stream.readLine s with
    | err e =>
      rw [hr] at h
      have := ((Stream.readLine_err s e).1 hr).2
      cases e <;> simp at h
      exact this.symm
    | panic => rw [hr] at h; simp at h
    | ok p =>
      obtain ⟨l, s'⟩ := p
      have hl := Stream.readLine_lt s s' l hN hr
      have hN' : 2 ≤ s'.bufsz := by rw [hl.bufsz]; exact hN
      rw [hr] at h
      obtain ⟨⟨c', s''⟩, hc, h⟩ := Res.bind_eq_ok.1 h
      have hs := commitLineRun_sub _ _ _ hN' _ _ hc
      rw [← hl.fin, ← hs.fin]
      exact ih s'' (hs.trans_lt hl) _ (by rw [hs.bufsz]; exact hN') h

theorem tagRun_eof (c r : Tag) (s : Stream) (hN : 2 ≤ s.bufsz) (h : tagRun c s = .ok r) :
    s.fin = .eof := by
  induction s using stream_induct generalizing c with
  | h s ih =>
    rw [tagRun_eq c s hN] at h
    cases hr : Stream.readLine s with
    | err e =>
      rw [hr] at h
      have := ((Stream.readLine_err s e).1 hr).2
      cases e <;> simp at h
      exact this.symm
    | panic => rw [hr] at h; simp at h
    | ok p =>
      obtain ⟨l, s'⟩ := p
      have hl := Stream.readLine_lt s s' l hN hr
      have hN' : 2 ≤ s'.bufsz := by rw [hl.bufsz]; exact hN
      rw [hr] at h
      obtain ⟨⟨c', s''⟩, hc, h⟩ := Res.bind_eq_ok.1 h
      have hs := tagLine_sub _ _ _ _ _ hc
      rw [← hl.fin, ← hs.fin]
      exact ih s'' (hs.trans_lt hl) _ (by rw [hs.bufsz]; exact hN') h

theorem decodeTreeEntry_eof (s : Stream) (h : decodeTreeEntry s = .err .eof) : s.fin = .eof := by
  unfold decodeTreeEntry at h
  simp only [reader_readString, reader_readFull] at h
  rcases Res.bind_eq_err.1 h with h | ⟨⟨x, s1⟩, h1, h⟩
  · exact ((Stream.readString_err _ _ _).1 h).2.symm
  obtain ⟨a, rfl, _, _, hf1, _⟩ := Stream.readString_ok _ _ _ _ h1
  simp only [chop_concat, Res.bind_ok] at h
  rcases Res.bind_eq_err.1 h with h | ⟨⟨y, s2⟩, h2, h⟩
  · rw [← hf1]; exact ((Stream.readString_err _ _ _).1 h).2.symm
  obtain ⟨b, rfl, _, _, hf2, _⟩ := Stream.readString_ok _ _ _ _ h2
  simp only [chop_concat, Res.bind_ok] at h
  rcases Res.bind_eq_err.1 h with h | ⟨⟨z, s3⟩, h3, h⟩
  · rw [← hf1, ← hf2]
    unfold Stream.readFull at h
    split at h
    · simp at h
    · split at h
      · rename_i hh; exact hh
      · simpa using h
  · rcases Res.bind_eq_err.1 h with h | ⟨c, h4, h⟩
    · unfold shaToCid at h
      split at h <;> simp at h
    · simp at h

theorem treeRun_eof (c r : Tree) (s : Stream) (h : treeRun c s = .ok r) : s.fin = .eof := by
  induction s using stream_induct generalizing c with
  | h s ih =>
    rw [treeRun_eq c s] at h
    cases hr : decodeTreeEntry s with
    | err e =>
      rw [hr] at h
      cases e <;> simp at h
      exact decodeTreeEntry_eof s hr
    | panic => rw [hr] at h; simp at h
    | ok p =>
      obtain ⟨⟨n, e⟩, s'⟩ := p
      have hl := decodeTreeEntry_lt s s' _ hr
      rw [hr] at h
      obtain ⟨t, _, h⟩ := Res.bind_eq_ok.1 h
      rw [← hl.fin]
      exact ih s' hl _ h

theorem decodeTree_eof (s : Stream) (r : Tree) (h : decodeTree s = .ok r) : s.fin = .eof := by
  rw [decodeTree_eq] at h
  obtain ⟨⟨n, s'⟩, h1, h⟩ := Res.bind_eq_ok.1 h
  rw [← (readNum_lt _ _ _ h1).fin]
  exact treeRun_eof _ _ _ h

theorem decodeCommit_eof (s : Stream) (hN : 2 ≤ s.bufsz) (r : Commit) (h : decodeCommit s = .ok r) :
    s.fin = .eof := by
  rw [decodeCommit_eq] at h
  obtain ⟨⟨n, s'⟩, h1, h⟩ := Res.bind_eq_ok.1 h
  have hl := readNum_lt _ _ _ h1
  rw [← hl.fin]
  exact commitRun_eof _ _ _ (by rw [hl.bufsz]; exact hN) h

theorem decodeTag_eof (s : Stream) (hN : 2 ≤ s.bufsz) (r : Tag) (h : decodeTag s = .ok r) :
    s.fin = .eof := by
  rw [decodeTag_eq] at h
  obtain ⟨⟨n, s'⟩, h1, h⟩ := Res.bind_eq_ok.1 h
  have hl := Stream.readString_lt _ _ _ _ h1
  rw [← hl.fin]
  exact tagRun_eof _ _ _ (by rw [hl.bufsz]; exact hN) h

end Verif
