import Verif.Spec.EntryStream
import Verif.Props.Accept
import Verif.Proofs.Faults
import Verif.Props.Delivery

/-!
# C125 Reading a tree entry by entry
-/

namespace Verif.Props

open Verif Spec

/-- A client calls `DecodeTreeEntry` until it returns an error: the entries it gets, and
the error. -/
inductive EntryCalls {σ : Type} [Reader σ] : σ → List (Bytes × TreeEntry) → Err → Prop
  | stop (s : σ) (e : Err) (h : decodeTreeEntry s = .err e) : EntryCalls s [] e
  | next (s s' : σ) (r : Bytes × TreeEntry) (rs : List (Bytes × TreeEntry)) (e : Err)
      (h : decodeTreeEntry s = .ok (r, s')) (hr : EntryCalls s' rs e) : EntryCalls s (r :: rs) e

/-- A text that ends without a further entry. -/
theorem entry_stop {s : Stream} {e : Err} (h : EntryEnd s.fin s.rest e) : decodeTreeEntry s = .err e := by
  obtain ⟨b, f, N⟩ := s
  simp only at h
  unfold decodeTreeEntry
  simp only [reader_readString, reader_readFull]
  cases h with
  | mode _ hm => rw [(Stream.readString_err _ _ _).2 ⟨hm, rfl⟩]; rfl
  | name m n hm hn =>
    rw [Stream.readString_delim _ _ _ _ _ hm]
    simp only [Res.bind_ok, chop_concat]
    rw [(Stream.readString_err _ _ _).2 ⟨hn, rfl⟩]; rfl
  | bare m n hm hn =>
    rw [Stream.readString_delim _ _ _ _ _ hm]
    simp only [Res.bind_ok, chop_concat]
    rw [Stream.readString_delim _ _ _ _ _ hn]
    simp only [Res.bind_ok, chop_concat]
    unfold Stream.readFull
    by_cases hf : e = .eof <;> simp [hf]
  | hash m n h hm hn h0 hl =>
    rw [Stream.readString_delim _ _ _ _ _ hm]
    simp only [Res.bind_ok, chop_concat]
    rw [Stream.readString_delim _ _ _ _ _ hn]
    simp only [Res.bind_ok, chop_concat]
    unfold Stream.readFull
    rw [if_neg (by simpa using hl)]
    by_cases hf : f = .eof <;> simp [hf, h0]

/-- One call, on whatever is left: an entry is read if there is a whole one, and no byte
behind it; otherwise the error tells where the text ends. -/
theorem entry_call (s : Stream) :
    (∃ (x : Entry) (r : Bytes), EntryOk x ∧ s.rest = x.text ++ r ∧ decodeTreeEntry s = .ok (x.row, { s with rest := r })) ∨
    (∃ e, EntryEnd s.fin s.rest e ∧ decodeTreeEntry s = .err e) := by
  have key : (∃ (x : Entry) (r : Bytes), EntryOk x ∧ s.rest = x.text ++ r) ∨ ∃ e, EntryEnd s.fin s.rest e := by
    by_cases hm : SP ∈ s.rest
    · obtain ⟨m, y, h1, hm⟩ := List.eq_append_cons_of_mem hm
      by_cases hn : NUL ∈ y
      · obtain ⟨n, z, rfl, hn'⟩ := List.eq_append_cons_of_mem hn
        by_cases hl : 20 ≤ z.length
        · refine .inl ⟨⟨m, n, z.take 20⟩, z.drop 20, ⟨hm, hn', by simp [hl]⟩, ?_⟩
          rw [h1]
          simp [Entry.text]
        · by_cases hz : z = []
          · subst hz
            exact .inr ⟨_, by rw [h1]; exact EntryEnd.bare m n hm hn'⟩
          · exact .inr ⟨_, by rw [h1]; exact EntryEnd.hash m n z hm hn' hz (by omega)⟩
      · exact .inr ⟨_, by rw [h1]; exact EntryEnd.name m y hm hn⟩
    · exact .inr ⟨_, .mode _ hm⟩
  rcases key with ⟨x, r, hx, he⟩ | ⟨e, he⟩
  · refine .inl ⟨x, r, hx, he, ?_⟩
    obtain ⟨b, f, N⟩ := s
    simp only at he
    subst he
    exact decodeTreeEntry_text x r f N hx
  · exact .inr ⟨e, he, entry_stop he⟩

/-- The calls come to an end, after at most one entry for 22 bytes of the text, and
there is only one way. No call panics. -/
theorem entries_total (s : Stream) :
    ∃ rs e, EntryCalls s rs e ∧ 22 * rs.length ≤ s.rest.length ∧ ∀ rs' e', EntryCalls s rs' e' → rs' = rs ∧ e' = e := by
  induction s using stream_induct with
  | h s ih =>
    rcases entry_call s with ⟨x, r, hx, hr, hd⟩ | ⟨e, _, hd⟩
    · obtain ⟨rs, e, h1, h2, h3⟩ := ih _ (decodeTreeEntry_lt _ _ _ hd)
      refine ⟨x.row :: rs, e, .next _ _ _ _ _ hd h1, ?_, ?_⟩
      · have := hx.sha
        simp only at h2
        rw [hr]
        simp only [Entry.text, List.length_append, List.length_cons, this]
        omega
      · intro rs' e' h
        cases h with
        | stop _ _ h => rw [hd] at h; cases h
        | next _ s' r' rs' _ h h' =>
          rw [hd] at h
          simp only [Res.ok.injEq, Prod.mk.injEq] at h
          obtain ⟨rfl, rfl⟩ := h
          obtain ⟨rfl, rfl⟩ := h3 _ _ h'
          exact ⟨rfl, rfl⟩
    · refine ⟨[], e, .stop _ _ hd, by simp, ?_⟩
      intro rs' e' h
      cases h with
      | stop _ _ h => rw [hd] at h; exact ⟨rfl, (Res.err.inj h).symm⟩
      | next _ _ _ _ _ h _ => rw [hd] at h; cases h

/-- What the calls give, for every text and every error at its end: the whole entries, in
their order and with repeated names, and the error for what is left. -/
theorem entries_exact (s : Stream) (rs : List (Bytes × TreeEntry)) (e : Err) :
    EntryCalls s rs e ↔ ∃ (es : List Entry) (tail : Bytes), s.rest = treeBody es ++ tail ∧ (∀ x ∈ es, EntryOk x) ∧
      rs = es.map Entry.row ∧ EntryEnd s.fin tail e := by
  constructor
  · intro h
    induction h with
    | stop s e h =>
      rcases entry_call s with ⟨x, r, hx, hr, hd⟩ | ⟨e', he, hd⟩
      · rw [hd] at h; cases h
      · rw [hd] at h
        obtain rfl := Res.err.inj h
        exact ⟨[], s.rest, rfl, by simp, rfl, he⟩
    | next s s' r rs e h _ ih =>
      rcases entry_call s with ⟨x, y, hx, hr, hd⟩ | ⟨e', he, hd⟩
      · rw [hd] at h
        simp only [Res.ok.injEq, Prod.mk.injEq] at h
        obtain ⟨rfl, rfl⟩ := h
        obtain ⟨es, tail, h1, h2, h3, h4⟩ := ih
        simp only at h1 h4
        refine ⟨x :: es, tail, ?_, ?_, by rw [h3]; rfl, h4⟩
        · rw [hr, h1]
          simp [treeBody]
        · intro y hy
          rcases List.mem_cons.1 hy with rfl | hy
          · exact hx
          · exact h2 y hy
      · rw [hd] at h; cases h
  · rintro ⟨es, tail, h1, h2, rfl, h4⟩
    obtain ⟨b, f, N⟩ := s
    simp only at h1 h4
    subst h1
    induction es with
    | nil => exact .stop _ _ (entry_stop h4)
    | cons x es ih =>
      have hb : treeBody (x :: es) ++ tail = x.text ++ (treeBody es ++ tail) := by simp [treeBody]
      rw [hb]
      exact .next _ _ _ _ _ (decodeTreeEntry_text x _ f N (h2 x (by simp))) (ih fun y hy => h2 y (by simp [hy]))

/-- How `ParseObject` of the whole tree follows: a repeated name is refused, also before
another error; otherwise EOF, wherever it comes, ends the tree, and any other error is
returned. -/
theorem entries_tree {d : Bytes} {z : Int} (hd : SizeField d z) (body : Bytes) (fin : Err) (N : Nat)
    (rs : List (Bytes × TreeEntry)) (e : Err) (h : EntryCalls (σ := Stream) ⟨body, fin, N⟩ rs e) :
    ((rs.map (·.1)).Nodup → e = .eof → ∃ t, parseObject (σ := Stream) ⟨b!"tree " ++ d ++ NUL :: body, fin, N⟩ = .ok (.tree t) ∧
      t.t = rs) ∧
    ((rs.map (·.1)).Nodup → e ≠ .eof → parseObject (σ := Stream) ⟨b!"tree " ++ d ++ NUL :: body, fin, N⟩ = .err e) ∧
    (¬ (rs.map (·.1)).Nodup → parseObject (σ := Stream) ⟨b!"tree " ++ d ++ NUL :: body, fin, N⟩ = .err .repeatedKey) := by
  obtain ⟨es, tail, h1, h2, rfl, h4⟩ := (entries_exact _ _ _).1 h
  simp only at h1 h4
  subst h1
  have hnames : (es.map Entry.row).map (·.1) = es.map (·.name) := by simp [Entry.row]
  rw [hnames]
  have hrun : (es.map (·.name)).Nodup → parseObject (σ := Stream) ⟨b!"tree " ++ d ++ NUL :: (treeBody es ++ tail), fin, N⟩ =
      (treeRun (treeOf es) ⟨tail, fin, N⟩ >>= fun t => .ok (.tree t)) := by
    intro hn
    have ht : b!"tree " ++ d ++ NUL :: (treeBody es ++ tail) = b!"tree" ++ SP :: (d ++ NUL :: (treeBody es ++ tail)) := by simp
    rw [ht, parse_tree, decodeTree_eq, readNum_signed d _ fin N z hd.2.1 hd.2.2.1 hd.2.2.2]
    simp only [Res.bind_ok]
    rw [treeRun_entries es _ N h2 treeInv_empty (by simpa using hn)]
    rfl
  have hstop := entry_stop (s := ⟨tail, fin, N⟩) h4
  refine ⟨?_, ?_, ?_⟩
  · rintro hn rfl
    refine ⟨treeOf es, ?_, treeOf_t es⟩
    rw [hrun hn, treeRun_eq, hstop]
    rfl
  · intro hn he
    rw [hrun hn, treeRun_eq, hstop]
    cases e <;> first | exact absurd rfl he | rfl
  · intro hn
    exact tree_duplicate d z es tail fin N hd.2.1 hd.2.2.1 hd.2.2.2 h2 hn

theorem entryCalls_right {σ : Type} [Reader σ] {R : σ → Stream → Prop} {fin : Err} {hasty : Prop} (S : ChoiceSim R fin hasty)
    {s : σ} {t : Stream} (h : R s t) {rs : List (Bytes × TreeEntry)} {e : Err} (hc : EntryCalls s rs e) : EntryCalls t rs e := by
  induction hc generalizing t with
  | stop s e hd =>
    have := choice_decodeTreeEntry S s t h
    rw [hd] at this
    cases ht : decodeTreeEntry t with
    | ok p => rw [ht] at this; exact this.elim
    | err e' => rw [ht] at this; obtain rfl : e = e' := this; exact .stop _ _ ht
    | panic => rw [ht] at this; exact this.elim
  | next s s' r rs e hd _ ih =>
    have := choice_decodeTreeEntry S s t h
    rw [hd] at this
    cases ht : decodeTreeEntry t with
    | ok p =>
      rw [ht] at this
      obtain ⟨r', t'⟩ := p
      obtain ⟨rfl, hr⟩ : r = r' ∧ R s' t' := this
      exact .next _ _ _ _ _ ht (ih hr)
    | err e' => rw [ht] at this; exact this.elim
    | panic => rw [ht] at this; exact this.elim

theorem entryCalls_left {σ : Type} [Reader σ] {R : σ → Stream → Prop} {fin : Err} {hasty : Prop} (S : ChoiceSim R fin hasty)
    {s : σ} {t : Stream} (h : R s t) {rs : List (Bytes × TreeEntry)} {e : Err} (hc : EntryCalls t rs e) : EntryCalls s rs e := by
  induction hc generalizing s with
  | stop t e hd =>
    have := choice_decodeTreeEntry S s t h
    rw [hd] at this
    cases hs : decodeTreeEntry s with
    | ok p => rw [hs] at this; exact this.elim
    | err e' => rw [hs] at this; obtain rfl : e' = e := this; exact .stop _ _ hs
    | panic => rw [hs] at this; exact this.elim
  | next t t' r rs e hd _ ih =>
    have := choice_decodeTreeEntry S s t h
    rw [hd] at this
    cases hs : decodeTreeEntry s with
    | ok p =>
      rw [hs] at this
      obtain ⟨r', s'⟩ := p
      obtain ⟨rfl, hr⟩ : r' = r ∧ R s' t' := this
      exact .next _ _ _ _ _ hs (ih hr)
    | err e' => rw [hs] at this; exact this.elim
    | panic => rw [hs] at this; exact this.elim

/-- Every reader of the text gives the same entries and the same error, however it cuts
the text and whether or not its error comes together with the last bytes. -/
theorem entries_delivery {ρ : Type} [Source ρ] {inv : ρ → Prop} {pending : ρ → Bytes} {fin : Err} {eager : Prop}
    (D : Delivers ρ inv pending fin eager) (r : ρ) (hr : inv r) (size : Nat) (hs : 2 ≤ size) (room : Nat → Nat)
    (rs : List (Bytes × TreeEntry)) (e : Err) :
    EntryCalls (newReader r size room) rs e ↔ EntryCalls (σ := Stream) ⟨pending r, fin, size⟩ rs e := by
  have h : MatchAny inv pending fin eager (newReader r size room) ⟨pending r, fin, size⟩ ∧ 2 ≤ size :=
    ⟨⟨hr, rfl, rfl, rfl, by simp [newReader], by simp only [newReader]; omega, by simp [newReader], by simp [newReader]⟩, hs⟩
  exact ⟨entryCalls_right (bufio_choice D) h, entryCalls_left (bufio_choice D) h⟩

/-! ## Cases -/

/-- Two entries of one name and a mode that is cut: the calls give both and EOF. -/
example : EntryCalls (σ := Stream) ⟨treeBody (sampleEntries ++ sampleEntries) ++ b!"1006", .eof, 16⟩
    ((sampleEntries ++ sampleEntries).map Entry.row) .eof :=
  (entries_exact _ _ _).2 ⟨_, _, rfl, fun x hx => sampleEntries_ok.each x (by simpa using hx), rfl, .mode _ (by decide)⟩

/-- The same from a reader that gives one byte at a time, through a buffer of 16 bytes. -/
example : EntryCalls (newReader (singles (treeBody (sampleEntries ++ sampleEntries) ++ b!"1006")) 16 (fun _ => 512))
    ((sampleEntries ++ sampleEntries).map Entry.row) .eof := by
  rw [entries_delivery singles_delivers _ ⟨_, rfl⟩ 16 (by decide), singles_flatten]
  exact (entries_exact _ _ _).2
    ⟨_, _, rfl, fun x hx => sampleEntries_ok.each x (by simpa using hx), rfl, .mode _ (by decide)⟩

/-- A part of a hash, at the end of the input and before another error. -/
example : EntryEnd .eof b!"40000 a\x00xyz" .unexpectedEof ∧ EntryEnd (.io 3) b!"40000 a\x00xyz" (.io 3) :=
  ⟨.hash b!"40000" b!"a" b!"xyz" (by decide) (by decide) (by decide) (by decide),
   .hash b!"40000" b!"a" b!"xyz" (by decide) (by decide) (by decide) (by decide)⟩

end Verif.Props
