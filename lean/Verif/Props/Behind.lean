import Verif.Props.EntryStream
import Verif.Props.TypeWord

/-!
# C127 What stands behind an object
-/

namespace Verif.Props

open Verif Spec

theorem line_behind {N : Nat} {b l r : Bytes} (h : Line N b l r) (hr : r ≠ []) (x : Bytes) : Line N (b ++ x) l (r ++ x) := by
  cases h with
  | lf _ _ h hc hs => simpa using Line.lf l (r ++ x) h hc hs
  | crlf _ _ h hs => simpa using Line.crlf l (r ++ x) h hs
  | last => exact absurd rfl hr
  | full _ _ h hc hs => simpa using Line.full l (r ++ x) h hc hs
  | fullCR _ r h hs => simpa using Line.fullCR l (r ++ x) h hs

theorem blank_behind {N : Nat} (hN : 2 ≤ N) {b r : Bytes} (h : Line N b [] r) (x : Bytes) : Line N (b ++ x) [] (r ++ x) := by
  generalize hl : ([] : Bytes) = l at h
  cases h with
  | lf _ _ h hc hs => simpa using Line.lf l (r ++ x) h hc hs
  | crlf _ _ h hs => simpa using Line.crlf l (r ++ x) h hs
  | last _ hne => exact absurd hl.symm hne
  | full _ _ _ _ hs => subst hl; simp only [List.length_nil] at hs; omega
  | fullCR _ _ _ hs => subst hl; simp only [List.length_nil] at hs; omega

theorem line_ne {N : Nat} (hN : 2 ≤ N) {b l r : Bytes} (h : Line N b l r) : b ≠ [] := by
  rintro rfl
  exact Line_nil hN h

theorem head_behind {N : Nat} (hN : 2 ≤ N) {b : Bytes} {ls : List Bytes} {r : Bytes} (h : Head N b ls (some r)) (x : Bytes) :
    Head N (b ++ x) ls (some (r ++ x)) ∧ b ≠ [] := by
  generalize hm : some r = m at h
  induction h with
  | done => cases hm
  | blank b r' h =>
    cases hm
    exact ⟨.blank _ _ (blank_behind hN h x), line_ne hN h⟩
  | line b l r' ls m h hne _ ih =>
    obtain ⟨h1, h2⟩ := ih hm
    exact ⟨.line _ _ _ _ _ (line_behind h h2 x) hne h1, line_ne hN h⟩

theorem sigBody_behind {N : Nat} (hN : 2 ≤ N) {b r : Bytes} {ls : List Bytes} (h : SigBody N b ls r) (hr : r ≠ []) (x : Bytes) :
    SigBody N (b ++ x) ls (r ++ x) ∧ b ≠ [] := by
  induction h with
  | stop b r h => exact ⟨.stop _ _ (line_behind h hr x), line_ne hN h⟩
  | more b l r r' ls h hne _ ih =>
    obtain ⟨h1, h2⟩ := ih hr
    exact ⟨.more _ _ _ _ _ (line_behind h h2 x) hne h1, line_ne hN h⟩

theorem mergeHead_behind {N : Nat} (hN : 2 ≤ N) {b r : Bytes} {ls : List Bytes} (h : MergeHead N b ls r) (hr : r ≠ [])
    (x : Bytes) : MergeHead N (b ++ x) ls (r ++ x) ∧ b ≠ [] := by
  induction h with
  | stop b r h => exact ⟨.stop _ _ (line_behind h hr x), line_ne hN h⟩
  | more b l r r' ls h hne _ ih =>
    obtain ⟨h1, h2⟩ := ih hr
    exact ⟨.more _ _ _ _ _ (line_behind h h2 x) hne h1, line_ne hN h⟩

theorem mergeMsg_behind {N : Nat} (hN : 2 ≤ N) {b r : Bytes} {ls : List Bytes} (h : MergeMsg N b ls r) (x : Bytes)
    (hr : ∃ l s, Line N r l s ∧ Line N (r ++ x) l (s ++ x)) :
    MergeMsg N (b ++ x) ls (r ++ x) ∧ b ≠ [] := by
  induction h with
  | stop b l r h hne =>
    obtain ⟨l', s, h1, h2⟩ := hr
    obtain ⟨rfl, rfl⟩ := Line_unique hN h h1
    exact ⟨.stop _ _ _ h2 hne, line_ne hN h⟩
  | more b l r r' ls h hsp _ ih =>
    obtain ⟨h1, h2⟩ := ih hr
    exact ⟨.more _ _ _ _ _ (line_behind h h2 x) hsp h1, line_ne hN h⟩

theorem blocks_behind {N : Nat} (hN : 2 ≤ N) {b : Bytes} {bs : List Spec.Block} {r : Bytes} (h : Blocks N b bs (some r))
    (x : Bytes) : Blocks N (b ++ x) bs (some (r ++ x)) ∧ ∃ l s, Line N b l s ∧ Line N (b ++ x) l (s ++ x) := by
  generalize hm : some r = m at h
  induction h with
  | done => cases hm
  | blank b r' h =>
    cases hm
    exact ⟨.blank _ _ (blank_behind hN h x), _, _, h, blank_behind hN h x⟩
  | line b l r' bs m h hne hmt hg _ ih =>
    obtain ⟨h1, _, _, h2, _⟩ := ih hm
    have := line_behind h (line_ne hN h2) x
    exact ⟨.line _ _ _ _ _ this hne hmt hg h1, _, _, h, this⟩
  | sig b l r' r'' ls bs m h hg hl _ ih =>
    obtain ⟨h1, _, _, h2, _⟩ := ih hm
    obtain ⟨h3, h4⟩ := sigBody_behind hN hl (line_ne hN h2) x
    have := line_behind h h4 x
    exact ⟨.sig _ _ _ _ _ _ _ this hg h3 h1, _, _, h, this⟩
  | merge b y r' r1 r2 ls msg bs m h hh hl _ ih =>
    obtain ⟨h1, h2⟩ := ih hm
    obtain ⟨h3, h4⟩ := mergeMsg_behind hN hl x h2
    obtain ⟨h5, h6⟩ := mergeHead_behind hN hh h4 x
    have := line_behind h h6 x
    exact ⟨.merge _ _ _ _ _ _ _ _ _ this h5 h3 h1, _, _, h, this⟩
  | cut => cases hm

theorem getD_some {m : Option Bytes} (h : m.getD [] ≠ []) : ∃ r, m = some r := by
  cases m with
  | none => exact absurd rfl h
  | some r => exact ⟨r, rfl⟩

/-- What stands behind a tag with a message becomes part of the message. -/
theorem behind_tag {f : Bytes} {N : Nat} (hN : 2 ≤ N) {t : Tag} (h : parseObject (σ := Stream) ⟨f, .eof, N⟩ = .ok (.tag t))
    (hm : t.message ≠ []) (x : Bytes) :
    parseObject (σ := Stream) ⟨f ++ x, .eof, N⟩ = .ok (.tag { t with message := t.message ++ x }) := by
  obtain ⟨_, d, body, ls, m, hd, hf, hb, ht⟩ := (tag_accepts _ hN _).1 h
  obtain ⟨r, rfl⟩ := getD_some (ht.message ▸ hm)
  simp only at hf hb
  refine (tag_accepts _ hN _).2 ⟨rfl, d, body ++ x, ls, some (r ++ x), hd, by simp [hf], (head_behind hN hb x).1, ?_⟩
  exact ⟨ht.object, ht.typ, ht.tag, ht.tagger, by rw [ht.message]; rfl⟩

/-- And behind a commit with a message. -/
theorem behind_commit {f : Bytes} {N : Nat} (hN : 2 ≤ N) {c : Commit}
    (h : parseObject (σ := Stream) ⟨f, .eof, N⟩ = .ok (.commit c)) (hm : c.message ≠ []) (x : Bytes) :
    parseObject (σ := Stream) ⟨f ++ x, .eof, N⟩ = .ok (.commit { c with message := c.message ++ x }) := by
  obtain ⟨_, d, z, body, bs, m, hd, hf, hb, hc⟩ := (commit_accepts _ hN _).1 h
  obtain ⟨r, rfl⟩ := getD_some (hc.message ▸ hm)
  simp only at hf hb
  refine (commit_accepts _ hN _).2 ⟨rfl, d, z, body ++ x, bs, some (r ++ x), hd, by simp [hf], (blocks_behind hN hb x).1, ?_⟩
  exact ⟨hc.tree, hc.parents, hc.author, hc.committer, hc.encoding, hc.mergetag, hc.signature, hc.other,
    by rw [hc.message]; rfl⟩

/-- Also if the message is empty, as long as the empty line before it is there. -/
theorem behind_closed {d body : Bytes} {N : Nat} (hN : 2 ≤ N) (hd : NUL ∉ d) (x : Bytes) :
    (∀ ls r t, Head N body ls (some r) → parseObject (σ := Stream) ⟨fileAs b!"tag" d body, .eof, N⟩ = .ok (.tag t) →
      parseObject (σ := Stream) ⟨fileAs b!"tag" d body ++ x, .eof, N⟩ = .ok (.tag { t with message := t.message ++ x })) ∧
    (∀ bs r c, Blocks N body bs (some r) → parseObject (σ := Stream) ⟨fileAs b!"commit" d body, .eof, N⟩ = .ok (.commit c) →
      parseObject (σ := Stream) ⟨fileAs b!"commit" d body ++ x, .eof, N⟩ = .ok (.commit { c with message := c.message ++ x })) := by
  constructor
  · intro ls r t hb h
    obtain ⟨_, d', body', ls', m, hd', hf, hb', ht⟩ := (tag_accepts _ hN _).1 h
    have : d ++ NUL :: body = d' ++ NUL :: body' := by simpa [fileAs] using hf
    obtain ⟨rfl, rfl⟩ := nul_apart hd hd' this
    obtain ⟨rfl, rfl⟩ := head_unique hN hb hb'
    refine (tag_accepts _ hN _).2 ⟨rfl, d, body ++ x, ls, some (r ++ x), hd, by simp [fileAs], (head_behind hN hb x).1, ?_⟩
    exact ⟨ht.object, ht.typ, ht.tag, ht.tagger, by rw [ht.message]; rfl⟩
  · intro bs r c hb h
    obtain ⟨_, d', z, body', bs', m, hd', hf, hb', hc⟩ := (commit_accepts _ hN _).1 h
    have : d ++ NUL :: body = d' ++ NUL :: body' := by simpa [fileAs] using hf
    obtain ⟨rfl, rfl⟩ := nul_apart hd hd'.1 this
    obtain ⟨rfl, rfl⟩ := blocks_unique hN hb hb'
    refine (commit_accepts _ hN _).2
      ⟨rfl, d, z, body ++ x, bs, some (r ++ x), hd', by simp [fileAs], (blocks_behind hN hb x).1, ?_⟩
    exact ⟨hc.tree, hc.parents, hc.author, hc.committer, hc.encoding, hc.mergetag, hc.signature, hc.other,
      by rw [hc.message]; rfl⟩

/-- What stands behind a blob does not matter. -/
theorem behind_blob {f b : Bytes} {N : Nat} (h : parseObject (σ := Stream) ⟨f, .eof, N⟩ = .ok (.blob b)) (x : Bytes) (fin : Err) :
    parseObject (σ := Stream) ⟨f ++ x, fin, N⟩ = .ok (.blob b) := by
  obtain ⟨d, content, rest, h1, h2, h3⟩ := (blob_accepts _ _).1 h
  simp only at h2
  exact (blob_accepts _ _).2 ⟨d, content, rest ++ x, h1, by simp [h2], h3⟩

/-- What stands behind the entries of a tree is read as further entries: those that a
client would get from it alone. -/
theorem behind_tree {d : Bytes} {z : Int} (hd : SizeField d z) {es : List Entry} (hes : EntriesOk es) (x : Bytes) (N : Nat)
    {rs : List (Bytes × TreeEntry)} {e : Err} (h : EntryCalls (σ := Stream) ⟨x, .eof, N⟩ rs e) :
    ((es.map (·.name) ++ rs.map (·.1)).Nodup → e = .eof →
      ∃ t, parseObject (σ := Stream) ⟨fileAs b!"tree" d (treeBody es) ++ x, .eof, N⟩ = .ok (.tree t) ∧ t.t = es.map Entry.row ++ rs) ∧
    ((es.map (·.name) ++ rs.map (·.1)).Nodup → e ≠ .eof →
      parseObject (σ := Stream) ⟨fileAs b!"tree" d (treeBody es) ++ x, .eof, N⟩ = .err e) ∧
    (¬ (es.map (·.name) ++ rs.map (·.1)).Nodup →
      parseObject (σ := Stream) ⟨fileAs b!"tree" d (treeBody es) ++ x, .eof, N⟩ = .err .repeatedKey) := by
  have hall : EntryCalls (σ := Stream) ⟨treeBody es ++ x, .eof, N⟩ (es.map Entry.row ++ rs) e := by
    obtain ⟨es', tail, h1, h2, rfl, h4⟩ := (entries_exact _ _ _).1 h
    simp only at h1 h4
    refine (entries_exact _ _ _).2 ⟨es ++ es', tail, by simp [h1, treeBody], ?_, by simp, h4⟩
    intro y hy
    rcases List.mem_append.1 hy with hy | hy
    · exact hes.each y hy
    · exact h2 y hy
  have hn : (es.map Entry.row ++ rs).map (·.1) = es.map (·.name) ++ rs.map (·.1) := by simp [Entry.row]
  have hf : fileAs b!"tree" d (treeBody es) ++ x = b!"tree " ++ d ++ NUL :: (treeBody es ++ x) := by simp [fileAs]
  have := entries_tree hd (treeBody es ++ x) .eof N _ _ hall
  rw [hn] at this
  rw [hf]
  exact this

/-- In particular, a text without NUL behind a tree is lost without notice. -/
theorem behind_lost {d : Bytes} {z : Int} (hd : SizeField d z) {es : List Entry} (hes : EntriesOk es) {x : Bytes} (hx : NUL ∉ x)
    (N : Nat) : ∃ t, parseObject (σ := Stream) ⟨fileAs b!"tree" d (treeBody es) ++ x, .eof, N⟩ = .ok (.tree t) ∧
      t.t = es.map Entry.row := by
  have hend : EntryEnd .eof x .eof := by
    by_cases h : SP ∈ x
    · obtain ⟨m, n, rfl, hm⟩ := List.eq_append_cons_of_mem h
      exact .name m n hm fun h => hx (by simp [h])
    · exact .mode x h
  have hc : EntryCalls (σ := Stream) ⟨x, .eof, N⟩ [] .eof := (entries_exact _ _ _).2 ⟨[], x, rfl, by simp, rfl, hend⟩
  simpa using (behind_tree hd hes x N hc).1 (by simpa using hes.distinct) rfl

/-! ## Cases -/

/-- Two tags in one stream: the second is in the message of the first. -/
example : parseObject (σ := Stream) ⟨b!"tag 9\x00type a\n\nhi" ++ b!"tag 9\x00type b\n\nho", .eof, 16⟩ =
    .ok (.tag { Tag.zero with typ := b!"a", message := b!"hitag 9\x00type b\n\nho" }) :=
  behind_tag (t := { Tag.zero with typ := b!"a", message := b!"hi" }) (by decide) (by decide +kernel) (by decide) _

/-- A commit with a signature, and a blob behind it. -/
example : parseObject (σ := Stream) ⟨b!"commit 0\x00gpgsig \n \n abc\n -----END PGP SIGNATURE-----\n\nhi" ++ b!"blob 1\x00x", .eof, 64⟩ =
    .ok (.commit { Commit.zero with signature := some b!" \n abc\n", message := b!"hiblob 1\x00x" }) :=
  behind_commit (c := { Commit.zero with signature := some b!" \n abc\n", message := b!"hi" }) (by decide) (by decide +kernel)
    (by decide) _

/-- A tag with an empty line and no message. -/
example : Head 16 b!"type a\n\n" [b!"type a"] (some []) ∧
    parseObject (σ := Stream) ⟨fileAs b!"tag" b!"8" b!"type a\n\n", .eof, 16⟩ = .ok (.tag { Tag.zero with typ := b!"a" }) :=
  ⟨.line _ _ _ _ _ (.lf b!"type a" b!"\n" (by decide) (by decide) (by decide)) (by decide)
     (.blank _ _ (.lf [] [] (by decide) (by decide) (by decide))), by decide +kernel⟩

/-- Entries, and the start of a blob behind them, which is no entry and not missed. -/
example : EntryCalls (σ := Stream) ⟨b!"blob 1\x00", .eof, 16⟩ [] .eof ∧ EntriesOk sampleEntries :=
  ⟨(entries_exact _ _ _).2 ⟨[], _, rfl, by simp, rfl, .bare b!"blob" b!"1" (by decide) (by decide)⟩, sampleEntries_ok⟩

end Verif.Props
