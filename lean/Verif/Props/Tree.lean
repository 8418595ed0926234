import Verif.Proofs.Parse
import Verif.Model.TreeNode

/-!
# Trees: C04 to C08
-/

namespace Verif.Props

open Verif Spec

/-- Two entries used in the examples. -/
def sampleEntries : List Entry :=
  [{ mode := b!"100644", name := b!"a.txt", sha := List.replicate 20 1 },
   { mode := b!"40000", name := b!"dir ectory", sha := List.replicate 20 0 }]

theorem sampleEntries_ok : EntriesOk sampleEntries :=
  ⟨by intro e he; simp [sampleEntries] at he; rcases he with rfl | rfl <;> exact ⟨by decide, by decide, by decide⟩,
   by decide⟩

/-! ## C04 Tree round trip -/

/-- A tree node with the given entries encodes, and decoding the result gives the
same entries in the same order. -/
theorem tree_roundtrip (es : List Entry) (h : EntriesOk es) (t : Tree) (ht : t.t = es.map Entry.row)
    (hlen : (treeBody es).length < 2 ^ 63) (N : Nat) :
    ∃ out t', encObj (.tree t) = .ok out ∧
      parseObject (σ := Stream) ⟨out, .eof, N⟩ = .ok (.tree t') ∧ t'.t = t.t := by
  refine ⟨withHeader b!"tree" (treeBody es), treeOf es, ?_, ?_, ?_⟩
  · simp only [encObj, encTree, ht, encTreeEntries_rows es h.each, Res.bind_ok]
  · rw [framed_decimal (framed_withHeader _ _), parse_tree, decodeTree_body es N h _ hlen]
    rfl
  · rw [treeOf_t, ht]

example : EntriesOk sampleEntries ∧ (treeOf sampleEntries).t = sampleEntries.map Entry.row ∧
    (treeBody sampleEntries).length < 2 ^ 63 := ⟨sampleEntries_ok, by decide, by decide⟩

/-! ## C05 Tree re-encoding is byte identical -/

/-- A well-formed git tree decodes to its entries, and encoding the decoded node
gives the input byte for byte. -/
theorem tree_bytes (es : List Entry) (h : EntriesOk es) (out : Bytes)
    (hout : Framed b!"tree" (treeBody es) out) (hlen : (treeBody es).length < 2 ^ 63) (N : Nat) :
    ∃ t, parseObject (σ := Stream) ⟨out, .eof, N⟩ = .ok (.tree t) ∧ t.t = es.map Entry.row ∧
      encObj (.tree t) = .ok out := by
  refine ⟨treeOf es, ?_, treeOf_t es, ?_⟩
  · rw [framed_decimal hout, parse_tree, decodeTree_body es N h _ hlen]
    rfl
  · simp only [encObj, encTree, treeOf_t, encTreeEntries_rows es h.each, Res.bind_ok]
    rw [framed_eq hout]

/-- Conversely, whatever decodes as a tree re-encodes to a well-formed tree whose
entries are complete entries of the stream, in order; at most an incomplete last
entry is lost. -/
theorem tree_decoded (s : Stream) (t : Tree) (h : parseObject s = .ok (.tree t)) :
    ∃ (d : Bytes) (z : Int) (es : List Entry) (tail : Bytes),
      s.rest = b!"tree " ++ d ++ NUL :: (treeBody es ++ tail) ∧ Signed d z ∧
      EntriesOk es ∧ t.t = es.map Entry.row ∧
      encObj (.tree t) = .ok (withHeader b!"tree" (treeBody es)) ∧
      decodeTreeEntry (σ := Stream) ⟨tail, .eof, s.bufsz⟩ = .err .eof := by
  rcases parse_inv_ok s _ h with ⟨t', s', hr, hf, hb, hd, ht⟩ | ⟨_, _, _, _, _, _, h⟩ |
    ⟨_, _, _, _, _, _, h⟩ | ⟨_, _, _, _, _, _, h⟩
  · simp only [Obj.tree.injEq] at ht
    subst ht
    have hfin := decodeTree_eof _ _ hd
    rw [decodeTree_eq] at hd
    obtain ⟨⟨z, s1⟩, h1, hd⟩ := Res.bind_eq_ok.1 hd
    obtain ⟨d, hrest, hnul, hat, hf1, hb1⟩ := readNum_ok _ _ _ h1
    obtain ⟨hs, _, _⟩ := (atoi_iff d z).1 hat
    have key : ∀ (s2 : Stream) (t0 : Tree), TreeInv t0 → treeRun t0 s2 = .ok t →
        ∃ es tail, s2.rest = treeBody es ++ tail ∧ (∀ e ∈ es, EntryOk e) ∧
          t.t = t0.t ++ es.map Entry.row ∧ (t.t.map (·.1)).Nodup ∧
          decodeTreeEntry (σ := Stream) ⟨tail, s2.fin, s2.bufsz⟩ = .err .eof := by
      intro s2
      induction s2 using stream_induct with
      | h s2 ih =>
        intro t0 hinv hrun
        rw [treeRun_eq] at hrun
        cases hde : decodeTreeEntry s2 with
        | err e =>
          rw [hde] at hrun
          cases e <;> simp at hrun
          subst hrun
          exact ⟨[], s2.rest, by simp [treeBody], by simp, by simp, hinv.nodup, hde⟩
        | panic => rw [hde] at hrun; simp at hrun
        | ok p =>
          obtain ⟨⟨n, e⟩, s3⟩ := p
          rw [hde] at hrun
          obtain ⟨t1, hadd, hrun⟩ := Res.bind_eq_ok.1 hrun
          obtain ⟨hnone, rfl⟩ := treeAdd_ok _ _ _ _ hadd
          have hlt := decodeTreeEntry_lt _ _ _ hde
          obtain ⟨es, tail, h2, h3, h4, h5, h6⟩ := ih s3 hlt _ (treeInv_add _ _ _ hinv hnone) hrun
          -- what the entry looked like
          unfold decodeTreeEntry at hde
          simp only [reader_readString, reader_readFull] at hde
          obtain ⟨⟨x, a1⟩, g1, hde⟩ := Res.bind_eq_ok.1 hde
          obtain ⟨a, rfl, ha, hra, hfa, hba⟩ := Stream.readString_ok _ _ _ _ g1
          simp only [chop_concat, Res.bind_ok] at hde
          obtain ⟨⟨y, a2⟩, g2, hde⟩ := Res.bind_eq_ok.1 hde
          obtain ⟨b, rfl, hb', hrb, hfb, hbb⟩ := Stream.readString_ok _ _ _ _ g2
          simp only [chop_concat, Res.bind_ok] at hde
          obtain ⟨⟨sha, a3⟩, g3, hde⟩ := Res.bind_eq_ok.1 hde
          obtain ⟨c, g4, hde⟩ := Res.bind_eq_ok.1 hde
          simp only [Res.ok.injEq, Prod.mk.injEq] at hde
          obtain ⟨⟨rfl, rfl⟩, rfl⟩ := hde
          obtain ⟨hsha, rfl⟩ := (shaToCid_eq_ok _ _).1 g4
          have hrest3 : a2.rest = sha ++ a3.rest := by
            unfold Stream.readFull at g3
            split at g3
            · simp only [Res.ok.injEq, Prod.mk.injEq] at g3
              rw [← g3.1, ← g3.2]; simp
            · split at g3
              · split at g3 <;> simp at g3
              · simp at g3
          refine ⟨⟨a, b, sha⟩ :: es, tail, ?_, ?_, ?_, h5, ?_⟩
          · simp only [treeBody, List.flatMap_cons, Entry.text] at h2 ⊢
            rw [hra, hrb, hrest3, h2]; simp
          · intro e he
            rcases List.mem_cons.1 he with rfl | he
            · exact ⟨ha, hb', hsha⟩
            · exact h3 e he
          · rw [h4]; simp [Entry.row, gitLink_eq]
          · rw [← hlt.fin, ← hlt.bufsz]; exact h6
    obtain ⟨es, tail, h2, h3, h4, h5, h6⟩ := key s1 _ treeInv_empty hd
    simp only [List.nil_append] at h4
    refine ⟨d, z, es, tail, ?_, hs, ⟨h3, ?_⟩, h4, ?_, ?_⟩
    · rw [hr, hrest, h2]; simp
    · rw [h4] at h5
      simpa [Entry.row, Function.comp_def] using h5
    · simp only [encObj, encTree, h4, encTreeEntries_rows es h3, Res.bind_ok]
    · rw [hf1, hfin, hb1, hb] at h6; exact h6
  · simp at h
  · simp at h
  · simp at h

example : ∃ out, Framed b!"tree" (treeBody sampleEntries) out ∧ out.length = 78 :=
  ⟨withHeader b!"tree" (treeBody sampleEntries), framed_withHeader _ _, by decide⟩

/-! ## C06 Duplicate tree names are rejected -/

/-- A tree stream whose complete entries contain a name twice, at whatever
positions and whatever follows, does not decode. -/
theorem tree_duplicate (d : Bytes) (z : Int) (es : List Entry) (r : Bytes) (e : Err) (N : Nat)
    (hd : Signed d z) (hlo : -(2 ^ 63 : Int) ≤ z) (hhi : z < 2 ^ 63)
    (hes : ∀ x ∈ es, EntryOk x) (hdup : ¬ (es.map (·.name)).Nodup) :
    parseObject (σ := Stream) ⟨b!"tree " ++ d ++ NUL :: (treeBody es ++ r), e, N⟩ = .err .repeatedKey := by
  have : b!"tree " ++ d ++ NUL :: (treeBody es ++ r) = b!"tree" ++ SP :: (d ++ NUL :: (treeBody es ++ r)) := by
    simp
  rw [this, parse_tree, decodeTree_eq, readNum_signed d _ e N z hd hlo hhi]
  simp only [Res.bind_ok]
  have key : ∀ (t : Tree), TreeInv t → ¬ (t.t.map (·.1) ++ es.map (·.name)).Nodup →
      treeRun t ⟨treeBody es ++ r, e, N⟩ = .err .repeatedKey := by
    clear hdup this
    induction es with
    | nil => intro t hinv hno; exact absurd hinv.nodup (by simpa using hno)
    | cons x es ih =>
      intro t hinv hno
      have hb : treeBody (x :: es) ++ r = x.text ++ (treeBody es ++ r) := by simp [treeBody]
      rw [hb, treeRun_eq, decodeTreeEntry_text _ _ _ _ (hes x (by simp))]
      simp only [Entry.row]
      cases hg : mapGet t.m x.name with
      | some v => simp [treeAdd, hg]
      | none =>
        simp only [treeAdd, hg, Res.bind_ok]
        refine ih (fun y hy => hes y (by simp [hy])) _ (treeInv_add _ _ _ hinv hg) ?_
        simpa using hno
  rw [key _ treeInv_empty (by simpa using hdup)]
  rfl

example : (∀ x ∈ sampleEntries ++ sampleEntries, EntryOk x) ∧
    ¬ ((sampleEntries ++ sampleEntries).map (·.name)).Nodup :=
  ⟨by intro x hx; exact sampleEntries_ok.each x (by simpa using hx), by decide⟩

/-! ## C07 Truncated trees are rejected

Full statement: a tree stream that stops in the middle of an entry fails to
decode. This is false: only a stop inside the 20 hash bytes is noticed. -/

/-- Exact outcome for every truncation point: the part `p` of the last entry is
silently dropped if it ends before the first hash byte, and is an error if it
ends inside the hash. -/
theorem tree_truncated_partial (d : Bytes) (z : Int) (es : List Entry) (x : Entry) (p q : Bytes)
    (N : Nat) (hd : Signed d z) (hlo : -(2 ^ 63 : Int) ≤ z) (hhi : z < 2 ^ 63) (h : EntriesOk es)
    (hx : EntryOk x) (hpq : x.text = p ++ q) (hp : p ≠ []) (hq : q ≠ []) :
    (q.length < 20 →
      parseObject (σ := Stream) ⟨b!"tree " ++ d ++ NUL :: (treeBody es ++ p), .eof, N⟩ =
        .err .unexpectedEof) ∧
    (20 ≤ q.length → ∃ t,
      parseObject (σ := Stream) ⟨b!"tree " ++ d ++ NUL :: (treeBody es ++ p), .eof, N⟩ =
        .ok (.tree t) ∧ t.t = es.map Entry.row) := by
  have hassoc : b!"tree " ++ d ++ NUL :: (treeBody es ++ p) =
      b!"tree" ++ SP :: (d ++ NUL :: (treeBody es ++ p)) := by simp
  have hstart : parseObject (σ := Stream) ⟨b!"tree " ++ d ++ NUL :: (treeBody es ++ p), .eof, N⟩ =
      treeRun (treeOf es) ⟨p, .eof, N⟩ >>= fun t => .ok (.tree t) := by
    rw [hassoc, parse_tree, decodeTree_eq, readNum_signed d _ _ N z hd hlo hhi]
    simp only [Res.bind_ok]
    rw [treeRun_entries es _ N h.each treeInv_empty (by simpa using h.distinct)]
    rfl
  have hsplit : ∀ (c : UInt8) (a b : Bytes), c ∉ a → a ++ c :: b = p ++ q →
      (∃ p', p = a ++ c :: p' ∧ p' ++ q = b) ∨ (c ∉ p ∧ q.length ≥ b.length + 1) := by
    intro c a b hc heq
    rcases List.append_eq_append_iff.1 heq with ⟨u, h1, h2⟩ | ⟨u, h1, h2⟩
    · cases u with
      | nil =>
        right
        simp only [List.append_nil] at h1
        simp only [List.nil_append] at h2
        rw [h1]; exact ⟨hc, by rw [← h2]; simp⟩
      | cons v vs =>
        left
        simp only [List.cons_append, List.cons.injEq] at h2
        exact ⟨vs, by rw [h1, h2.1], h2.2.symm⟩
    · right
      refine ⟨?_, by rw [h2]; simp⟩
      intro hm
      exact hc (by rw [h1]; simp [hm])
  rw [hstart, treeRun_eq]
  unfold Entry.text at hpq
  -- where does `p` end?
  rcases hsplit SP x.mode (x.name ++ NUL :: x.sha) hx.mode hpq with ⟨p1, hp1, hq1⟩ | ⟨hno, hlen⟩
  · clear hsplit
    have hsplit3 : (∃ p', p1 = x.name ++ NUL :: p' ∧ p' ++ q = x.sha) ∨
        (NUL ∉ p1 ∧ q.length ≥ x.sha.length + 1) := by
      rcases List.append_eq_append_iff.1 hq1.symm with ⟨u, h1, h2⟩ | ⟨u, h1, h2⟩
      · cases u with
        | nil =>
          right
          simp only [List.append_nil] at h1
          simp only [List.nil_append] at h2
          rw [h1]; exact ⟨hx.name, by rw [← h2]; simp⟩
        | cons v vs =>
          left
          simp only [List.cons_append, List.cons.injEq] at h2
          exact ⟨vs, by rw [h1, h2.1], h2.2.symm⟩
      · right
        refine ⟨?_, by rw [h2]; simp⟩
        intro hm
        exact hx.name (by rw [h1]; simp [hm])
    have hd1 : decodeTreeEntry (σ := Stream) ⟨p, .eof, N⟩ = (do
        let (name, s) ← Stream.readString NUL ⟨p1, .eof, N⟩
        let name ← chop name
        let (sha, s) ← Stream.readFull 20 s
        let c ← shaToCid sha
        .ok ((name, { mode := x.mode, hash := .cid c }), s)) := by
      unfold decodeTreeEntry
      simp only [reader_readString, reader_readFull]
      rw [hp1, Stream.readString_delim _ _ _ _ _ hx.mode]
      simp only [Res.bind_ok, chop_concat]
    rcases hsplit3 with ⟨p2, hp2, hq2⟩ | ⟨hno, hlen⟩
    · have hl2 : p2.length + q.length = 20 := by rw [← List.length_append, hq2, hx.sha]
      have hq0 : 0 < q.length := List.length_pos_iff.2 hq
      have hd2 : decodeTreeEntry (σ := Stream) ⟨p, .eof, N⟩ =
          if p2 = [] then .err .eof else .err .unexpectedEof := by
        rw [hd1, hp2, Stream.readString_delim _ _ _ _ _ hx.name]
        simp only [Res.bind_ok, chop_concat, Stream.readFull]
        rw [if_neg (by omega)]
        simp only [if_true]
        split <;> rfl
      rw [hd2]
      constructor
      · intro hlt
        rw [if_neg (by rintro rfl; simp at hl2; omega)]
        rfl
      · intro hge
        rw [if_pos (by apply List.length_eq_zero_iff.1; omega)]
        exact ⟨treeOf es, rfl, treeOf_t es⟩
    · have hd2 : decodeTreeEntry (σ := Stream) ⟨p, .eof, N⟩ = .err .eof := by
        rw [hd1, (Stream.readString_err NUL ⟨p1, .eof, N⟩ .eof).2 ⟨hno, rfl⟩]
        rfl
      rw [hd2]
      rw [hx.sha] at hlen
      exact ⟨fun hlt => absurd hlt (by omega), fun _ => ⟨treeOf es, rfl, treeOf_t es⟩⟩
  · have hd2 : decodeTreeEntry (σ := Stream) ⟨p, .eof, N⟩ = .err .eof := by
      unfold decodeTreeEntry
      simp only [reader_readString, reader_readFull]
      rw [(Stream.readString_err SP ⟨p, .eof, N⟩ .eof).2 ⟨hno, rfl⟩]
      rfl
    rw [hd2]
    simp only [List.length_append, List.length_cons, hx.sha] at hlen
    exact ⟨fun hlt => absurd hlt (by omega), fun _ => ⟨treeOf es, rfl, treeOf_t es⟩⟩

/-- A stream cut inside the header is rejected. -/
theorem tree_truncated_header (p : Bytes) (N : Nat) (hp : NUL ∉ p) :
    ∃ e, parseObject (σ := Stream) ⟨p, .eof, N⟩ = .err e := by
  cases h : parseObject (σ := Stream) ⟨p, .eof, N⟩ with
  | err e => exact ⟨e, rfl⟩
  | panic =>
    exfalso
    unfold parseObject at h
    rcases Res.bind_eq_panic.1 h with h | ⟨⟨w, s'⟩, h1, h⟩
    · exact (clean_readType _ (by simp)).1 h
    · obtain ⟨hlt, _, hrest⟩ := readType_ok _ _ _ h1
      have hp' : NUL ∉ s'.rest := by
        intro hm; apply hp; simp only at hrest; rw [hrest]; simp [hm]
      have hrd : Stream.readString NUL s' = .err s'.fin :=
        (Stream.readString_err NUL s' _).2 ⟨hp', rfl⟩
      have hnum : readNum s' = .err s'.fin := by simp [readNum, hrd]
      simp only at h
      split at h
      · simp [decodeTree, hnum] at h
      split at h
      · simp [decodeCommit, hnum] at h
      split at h
      · simp [decodeBlob, hnum] at h
      split at h
      · simp [decodeTag, hrd] at h
      · simp at h
  | ok o =>
    exfalso
    have hn : ∀ s' : Stream, (∃ w, p = w ++ SP :: s'.rest) →
        Stream.readString NUL s' = .err s'.fin := by
      rintro s' ⟨w, hw⟩
      exact (Stream.readString_err NUL s' _).2 ⟨fun hm => hp (by rw [hw]; simp [hm]), rfl⟩
    rcases parse_inv_ok _ _ h with ⟨_, s', hr, _, _, hd, _⟩ | ⟨_, s', hr, _, _, hd, _⟩ |
      ⟨_, s', hr, _, _, hd, _⟩ | ⟨_, s', hr, _, _, hd, _⟩
    · have hnum : readNum s' = .err s'.fin := by simp [readNum, hn s' ⟨_, hr⟩]
      simp [decodeTree, hnum] at hd
    · have hnum : readNum s' = .err s'.fin := by simp [readNum, hn s' ⟨_, hr⟩]
      simp [decodeCommit, hnum] at hd
    · have hnum : readNum s' = .err s'.fin := by simp [readNum, hn s' ⟨_, hr⟩]
      simp [decodeBlob, hnum] at hd
    · simp [decodeTag, hn s' ⟨_, hr⟩] at hd

/-- Counterexample to the full statement: a tree cut in the middle of a name
decodes as the empty tree. -/
theorem tree_truncation_accepted :
    parseObject (σ := Stream) ⟨b!"tree 32\x00100644 a", .eof, 4096⟩ = .ok (.tree { m := [], t := [] }) := by
  decide

example : ∃ x ∈ sampleEntries, EntryOk x ∧ ∃ p q, x.text = p ++ q ∧ p ≠ [] ∧ q ≠ [] :=
  ⟨_, List.mem_cons_self, sampleEntries_ok.each _ List.mem_cons_self, _, _,
    (List.take_append_drop 10 _).symm, by decide, by decide⟩

/-! ## C08 Tree lookup agrees with iteration -/

theorem treeItr_run (t : Tree) (n i : Nat) (h : t.t.length ≤ i + n) :
    TreeItr.run n ⟨t, i⟩ = .ok (t.t.drop i) := by
  induction n generalizing i with
  | zero =>
    have : t.t.drop i = [] := List.drop_eq_nil_of_le (by omega)
    simp [TreeItr.run, TreeItr.done, this]; omega
  | succ n ih =>
    unfold TreeItr.run
    by_cases hi : t.t.length ≤ i
    · have : t.t.drop i = [] := List.drop_eq_nil_of_le hi
      simp [TreeItr.done, hi, this]
    · have hlt : i < t.t.length := by omega
      simp only [TreeItr.done, ge_iff_le, hi, decide_false, Bool.false_eq_true, if_false,
        TreeItr.next, List.getElem?_eq_getElem hlt, Res.bind_ok]
      rw [ih (i + 1) (by omega)]
      simp only [Res.bind_ok]
      rw [List.drop_eq_getElem_cons hlt]

/-- The invariant holds for every decoded tree. -/
theorem decoded_treeInv (s : Stream) (t : Tree) (h : parseObject s = .ok (.tree t)) : TreeInv t := by
  rcases parse_inv_ok s _ h with ⟨t', s', hr, hf, hb, hd, ht⟩ | ⟨_, _, _, _, _, _, h⟩ |
    ⟨_, _, _, _, _, _, h⟩ | ⟨_, _, _, _, _, _, h⟩
  · simp only [Obj.tree.injEq] at ht
    subst ht
    rw [decodeTree_eq] at hd
    obtain ⟨⟨z, s1⟩, h1, hd⟩ := Res.bind_eq_ok.1 hd
    have key : ∀ (s2 : Stream) (t0 : Tree), TreeInv t0 → treeRun t0 s2 = .ok t → TreeInv t := by
      intro s2
      induction s2 using stream_induct with
      | h s2 ih =>
        intro t0 hinv hrun
        rw [treeRun_eq] at hrun
        cases hde : decodeTreeEntry s2 with
        | err e =>
          rw [hde] at hrun
          cases e <;> simp at hrun
          subst hrun; exact hinv
        | panic => rw [hde] at hrun; simp at hrun
        | ok p =>
          obtain ⟨⟨n, e⟩, s3⟩ := p
          rw [hde] at hrun
          obtain ⟨t1, hadd, hrun⟩ := Res.bind_eq_ok.1 hrun
          obtain ⟨hnone, rfl⟩ := treeAdd_ok _ _ _ _ hadd
          exact ih s3 (decodeTreeEntry_lt _ _ _ hde) _ (treeInv_add _ _ _ hinv hnone) hrun
    exact key s1 _ treeInv_empty hd
  · simp at h
  · simp at h
  · simp at h

/-- In a decoded tree iteration ends after `Length` entries with distinct names;
a lookup succeeds exactly with the entry iterated under that name, and reports
"not exists" exactly for names that are not iterated. -/
theorem tree_lookup_iteration (s : Stream) (t : Tree) (h : parseObject s = .ok (.tree t)) :
    ∃ rows, (∀ n, treeLength t ≤ n → (treeIterator t).run n = .ok rows) ∧
      rows.length = treeLength t ∧ (rows.map (·.1)).Nodup ∧
      (∀ k e, treeLookup t k = .ok e ↔ (k, e) ∈ rows) ∧
      (∀ k, treeLookup t k = .err .notExists ↔ k ∉ rows.map (·.1)) := by
  have hinv := decoded_treeInv s t h
  have hfind : ∀ k, (t.t.find? (fun r => r.1 = k)).map (·.2) = mapGet t.m k := fun k => (hinv.lookup k).symm
  refine ⟨t.t, ?_, rfl, hinv.nodup, ?_, ?_⟩
  · intro n hn
    have := treeItr_run t n 0 (by simpa [treeLength] using hn)
    simpa [treeIterator] using this
  · intro k e
    unfold treeLookup
    rw [← hfind k]
    constructor
    · intro hk
      cases hf : t.t.find? (fun r => r.1 = k) with
      | none => rw [hf] at hk; simp at hk
      | some r =>
        rw [hf] at hk
        simp only [Option.map_some, Res.ok.injEq] at hk
        have hm := List.mem_of_find?_eq_some hf
        have hp := List.find?_some hf
        simp only [decide_eq_true_eq] at hp
        obtain ⟨a, b⟩ := r
        simp only at hp hk
        rw [← hp, ← hk]; exact hm
    · intro hm
      cases hf : t.t.find? (fun r => r.1 = k) with
      | none =>
        have := List.find?_eq_none.1 hf _ hm
        simp at this
      | some r =>
        have hm' := List.mem_of_find?_eq_some hf
        have hp := List.find?_some hf
        simp only [decide_eq_true_eq] at hp
        have : r = (k, e) := by
          have hnd := hinv.nodup
          clear h hinv hfind hf
          generalize t.t = l at hm hm' hnd
          induction l with
          | nil => simp at hm
          | cons y ys ih =>
            simp only [List.map_cons, List.nodup_cons] at hnd
            rcases List.mem_cons.1 hm with h1 | h1 <;> rcases List.mem_cons.1 hm' with h2 | h2
            · rw [h1, h2]
            · exfalso; apply hnd.1; rw [← h1]; exact List.mem_map.2 ⟨r, h2, hp⟩
            · exfalso; apply hnd.1; rw [← h2, hp]; exact List.mem_map.2 ⟨(k, e), h1, rfl⟩
            · exact ih h1 h2 hnd.2
        simp [this]
  · intro k
    unfold treeLookup
    rw [← hfind k]
    constructor
    · intro hk hm
      obtain ⟨r, hr, rfl⟩ := List.mem_map.1 hm
      cases hf : t.t.find? (fun q => q.1 = r.1) with
      | none =>
        have := List.find?_eq_none.1 hf _ hr
        simp at this
      | some r => rw [hf] at hk; simp at hk
    · intro hk
      have : t.t.find? (fun q => q.1 = k) = none := by
        rw [List.find?_eq_none]
        intro r hr
        simp only [decide_eq_true_eq]
        rintro rfl
        exact hk (List.mem_map.2 ⟨r, hr, rfl⟩)
      rw [this]; rfl

example : ∃ t, parseObject (σ := Stream)
    ⟨withHeader b!"tree" (treeBody sampleEntries), .eof, 4096⟩ = .ok (.tree t) ∧ treeLength t = 2 :=
  ⟨treeOf sampleEntries, by decide, by decide⟩

end Verif.Props
