import Verif.Proofs.Build

/-!
# Builders enforce the schema (C38)

`Type.X__Repr.NewBuilder()`, `AssignNode(n)`, `Build()` for the struct types,
against the denotation of nodes in `Verif.Spec.Build`.
-/

namespace Verif.Props

open Verif Spec

/-! ## PersonInfo -/

def personP (k : Bytes) (o : Option Node) (p : PersonInfo) : Prop :=
  ∀ v, o = some v →
    (k = b!"date" → StrNode v p.date) ∧ (k = b!"timezone" → StrNode v p.timezone) ∧
    (k = b!"email" → StrNode v p.email) ∧ (k = b!"name" → StrNode v p.name)

theorem personP_none (k : Bytes) (p : PersonInfo) : personP k none p := fun _ h => by cases h

theorem person_names : (personStruct.fields.map Field.name).Nodup := by decide

theorem person_respects : personStruct.Respects personP := by
  intro f hf w n w' _ h
  simp only [personStruct, List.mem_cons, List.not_mem_nil, or_false] at hf
  rcases hf with rfl | rfl | rfl | rfl <;>
  · obtain ⟨b, h1, h2⟩ := Res.bind_eq_ok.1 h
    rw [assignString_ok] at h1
    cases h2
    refine ⟨?_, ?_⟩
    · intro v hv
      cases hv
      refine ⟨?_, ?_, ?_, ?_⟩ <;> intro hk <;> first | exact h1 | exact absurd hk (by decide)
    · intro k m hk hp v hv
      obtain ⟨p1, p2, p3, p4⟩ := hp v hv
      refine ⟨?_, ?_, ?_, ?_⟩ <;> intro hk' <;>
        first | exact absurd hk' hk | exact p1 hk' | exact p2 hk' | exact p3 hk' | exact p4 hk'

theorem personNode_of_denotes {n : Node} {p : PersonInfo} (h : personStruct.Denotes personP n p) :
    PersonNode n p := by
  obtain ⟨es, hes, h1, h2, h3, h4, -⟩ := h
  refine ⟨es, hes, ⟨h1, fun k hk => Or.inl (h2 k hk), ?_⟩, ?_, ?_, ?_, ?_⟩
  · intro k hk
    obtain ⟨f, hf, rfl⟩ := List.mem_map.1 (show k ∈ personStruct.fields.map Field.name from hk)
    refine h3 f hf ?_
    simp only [personStruct, List.mem_cons, List.not_mem_nil, or_false] at hf
    rcases hf with rfl | rfl | rfl | rfl <;> rfl
  · exact fun v hv => ((h4 _ _ hv) v rfl).1 rfl
  · exact fun v hv => ((h4 _ _ hv) v rfl).2.1 rfl
  · exact fun v hv => ((h4 _ _ hv) v rfl).2.2.1 rfl
  · exact fun v hv => ((h4 _ _ hv) v rfl).2.2.2 rfl

theorem own_string (b : Bytes) : StrNode (.own (.string b)) b := ⟨rfl, rfl⟩
theorem own_gpgSig (b : Bytes) : StrNode (.own (.gpgSig b)) b := ⟨rfl, rfl⟩
theorem own_link (l : Link) : LinkNode (.own (.link l)) l := ⟨rfl, rfl⟩
theorem own_treeLink (l : Link) : LinkNode (.own (.treeLink l)) l := ⟨rfl, rfl⟩
theorem own_commitLink (l : Link) : LinkNode (.own (.commitLink l)) l := ⟨rfl, rfl⟩

theorem strNode_unique {n : Node} {a b : Bytes} (h1 : StrNode n a) (h2 : StrNode n b) : a = b := by
  have := h1.2.symm.trans h2.2
  exact Res.ok.inj this

theorem linkNode_unique {n : Node} {a b : Link} (h1 : LinkNode n a) (h2 : LinkNode n b) :
    a = b := by
  have := h1.2.symm.trans h2.2
  exact Res.ok.inj this

theorem person_self {n : Node} {p : PersonInfo} (h : personStruct.self n = some p) :
    n = .own (.person p) := by
  simp only [personStruct] at h
  split at h
  · cases h; rfl
  · cases h

theorem person_own (p : PersonInfo) : personStruct.Denotes personP (.own (.person p)) p := by
  refine ⟨_, rfl, person_names, fun _ hk => hk, ?_, ?_, fun _ _ _ => personP_none _ _⟩
  · intro f hf _
    exact List.mem_map_of_mem hf
  · intro k v hv
    simp only [Own.entries, List.mem_cons, List.not_mem_nil, or_false, Prod.mk.injEq] at hv
    intro v' hv'
    cases hv'
    rcases hv with ⟨rfl, rfl⟩ | ⟨rfl, rfl⟩ | ⟨rfl, rfl⟩ | ⟨rfl, rfl⟩ <;>
      (refine ⟨?_, ?_, ?_, ?_⟩ <;> intro hk <;>
        first | exact own_string _ | exact absurd hk (by decide))

/-- `AssignNode` and `Build` on any person assembler that has a value to fill. -/
theorem person_child_iff (w : PersonInfo) (n : Node) (p : PersonInfo) :
    personStruct.child (some w) n = .ok p ↔ PersonNode n p := by
  have fwd : ∀ {p}, personStruct.child (some w) n = .ok p → PersonNode n p := fun {p} h =>
    personNode_of_denotes (personStruct.child_denotes person_names personP person_respects
      (fun n v hv => by rw [person_self hv]; exact person_own v)
      (fun f _ => personP_none _ _) h)
  refine ⟨fwd, fun hp => ?_⟩
  obtain ⟨es, hes, ⟨k1, k2, k3⟩, a1, a2, a3, a4⟩ := hp
  obtain ⟨p', hp'⟩ := personStruct.child_exists person_names personP person_respects
    (w := w) (fun f _ => personP_none _ _) hes k1
    (fun k hk => (k2 k hk).resolve_right (fun h => by cases h))
    (fun f hf _ => k3 f.name (List.mem_map_of_mem hf))
    (by
      intro f hf v hv w _
      simp only [personStruct, List.mem_cons, List.not_mem_nil, or_false] at hf
      rcases hf with rfl | rfl | rfl | rfl
      · exact ⟨_, by dsimp only; rw [assignString_ok.2 (a1 v hv)]; rfl⟩
      · exact ⟨_, by dsimp only; rw [assignString_ok.2 (a2 v hv)]; rfl⟩
      · exact ⟨_, by dsimp only; rw [assignString_ok.2 (a3 v hv)]; rfl⟩
      · exact ⟨_, by dsimp only; rw [assignString_ok.2 (a4 v hv)]; rfl⟩)
  obtain ⟨es', hes', ⟨-, -, k3'⟩, b1, b2, b3, b4⟩ := fwd hp'
  rw [hes] at hes'
  cases hes'
  rw [hp']
  have ex : ∀ k ∈ es.map Prod.fst, ∃ v, (k, v) ∈ es := fun k hk => by
    obtain ⟨⟨k', v⟩, hv, rfl⟩ := List.mem_map.1 hk
    exact ⟨v, hv⟩
  obtain ⟨v1, e1⟩ := ex _ (k3 b!"date" (by simp))
  obtain ⟨v2, e2⟩ := ex _ (k3 b!"timezone" (by simp))
  obtain ⟨v3, e3⟩ := ex _ (k3 b!"email" (by simp))
  obtain ⟨v4, e4⟩ := ex _ (k3 b!"name" (by simp))
  have f1 := strNode_unique (a1 _ e1) (b1 _ e1)
  have f2 := strNode_unique (a2 _ e2) (b2 _ e2)
  have f3 := strNode_unique (a3 _ e3) (b3 _ e3)
  have f4 := strNode_unique (a4 _ e4) (b4 _ e4)
  congr 1
  cases p
  cases p'
  simp_all

/-- A person builder accepts a node exactly when the node is a map with each of
the four fields once, all strings, and nothing else; the person built has those
values. -/
theorem build_person (n : Node) (p : PersonInfo) : buildPerson n = .ok p ↔ PersonNode n p :=
  person_child_iff _ n p

theorem personNode_unique {n : Node} {a b : PersonInfo} (h1 : PersonNode n a)
    (h2 : PersonNode n b) : a = b := by
  rw [← build_person] at h1 h2
  exact Res.ok.inj (h1.symm.trans h2)

/-! ## TreeEntry -/

def treeEntryP (k : Bytes) (o : Option Node) (e : TreeEntry) : Prop :=
  ∀ v, o = some v →
    (k = b!"mode" → StrNode v e.mode) ∧ (k = b!"hash" → LinkNode v e.hash)

theorem treeEntryP_none (k : Bytes) (e : TreeEntry) : treeEntryP k none e := fun _ h => by cases h

theorem treeEntry_names : (treeEntryStruct.fields.map Field.name).Nodup := by decide

theorem treeEntry_respects : treeEntryStruct.Respects treeEntryP := by
  intro f hf w n w' _ h
  simp only [treeEntryStruct, List.mem_cons, List.not_mem_nil, or_false] at hf
  rcases hf with rfl | rfl <;>
  · obtain ⟨b, h1, h2⟩ := Res.bind_eq_ok.1 h
    first | rw [assignString_ok] at h1 | rw [assignLink_ok] at h1
    cases h2
    refine ⟨?_, ?_⟩
    · intro v hv
      cases hv
      refine ⟨?_, ?_⟩ <;> intro hk <;> first | exact h1 | exact absurd hk (by decide)
    · intro k m hk hp v hv
      obtain ⟨p1, p2⟩ := hp v hv
      refine ⟨?_, ?_⟩ <;> intro hk' <;>
        first | exact absurd hk' hk | exact p1 hk' | exact p2 hk'

theorem treeEntryNode_of_denotes {n : Node} {e : TreeEntry}
    (h : treeEntryStruct.Denotes treeEntryP n e) : TreeEntryNode n e := by
  obtain ⟨es, hes, h1, h2, h3, h4, -⟩ := h
  refine ⟨es, hes, ⟨h1, fun k hk => Or.inl (h2 k hk), ?_⟩, ?_, ?_⟩
  · intro k hk
    obtain ⟨f, hf, rfl⟩ := List.mem_map.1 (show k ∈ treeEntryStruct.fields.map Field.name from hk)
    refine h3 f hf ?_
    simp only [treeEntryStruct, List.mem_cons, List.not_mem_nil, or_false] at hf
    rcases hf with rfl | rfl <;> rfl
  · exact fun v hv => ((h4 _ _ hv) v rfl).1 rfl
  · exact fun v hv => ((h4 _ _ hv) v rfl).2 rfl

theorem treeEntry_self {n : Node} {e : TreeEntry} (h : treeEntryStruct.self n = some e) :
    n = .own (.treeEntry e) := by
  simp only [treeEntryStruct] at h
  split at h
  · cases h; rfl
  · cases h

theorem treeEntry_own (e : TreeEntry) :
    treeEntryStruct.Denotes treeEntryP (.own (.treeEntry e)) e := by
  refine ⟨_, rfl, treeEntry_names, fun _ hk => hk, ?_, ?_, fun _ _ _ => treeEntryP_none _ _⟩
  · intro f hf _
    exact List.mem_map_of_mem hf
  · intro k v hv
    simp only [Own.entries, List.mem_cons, List.not_mem_nil, or_false, Prod.mk.injEq] at hv
    intro v' hv'
    cases hv'
    rcases hv with ⟨rfl, rfl⟩ | ⟨rfl, rfl⟩ <;>
      (refine ⟨?_, ?_⟩ <;> intro hk <;>
        first | exact own_string _ | exact own_link _ | exact absurd hk (by decide))

theorem exists_entry {es : List (Bytes × Node)} {k : Bytes} (hk : k ∈ es.map Prod.fst) :
    ∃ v, (k, v) ∈ es := by
  obtain ⟨⟨k', v⟩, hv, rfl⟩ := List.mem_map.1 hk
  exact ⟨v, hv⟩

/-- `AssignNode` and `Build` on any tree entry assembler that has a value to
fill. -/
theorem treeEntry_child_iff (w : TreeEntry) (n : Node) (e : TreeEntry) :
    treeEntryStruct.child (some w) n = .ok e ↔ TreeEntryNode n e := by
  have fwd : ∀ {e}, treeEntryStruct.child (some w) n = .ok e → TreeEntryNode n e := fun {e} h =>
    treeEntryNode_of_denotes (treeEntryStruct.child_denotes treeEntry_names treeEntryP
      treeEntry_respects (fun n v hv => by rw [treeEntry_self hv]; exact treeEntry_own v)
      (fun f _ => treeEntryP_none _ _) h)
  refine ⟨fwd, fun hp => ?_⟩
  obtain ⟨es, hes, ⟨k1, k2, k3⟩, a1, a2⟩ := hp
  obtain ⟨e', he'⟩ := treeEntryStruct.child_exists treeEntry_names treeEntryP treeEntry_respects
    (w := w) (fun f _ => treeEntryP_none _ _) hes k1
    (fun k hk => (k2 k hk).resolve_right (fun h => by cases h))
    (fun f hf _ => k3 f.name (List.mem_map_of_mem hf))
    (by
      intro f hf v hv w _
      simp only [treeEntryStruct, List.mem_cons, List.not_mem_nil, or_false] at hf
      rcases hf with rfl | rfl
      · exact ⟨_, by dsimp only; rw [assignString_ok.2 (a1 v hv)]; rfl⟩
      · exact ⟨_, by dsimp only; rw [assignLink_ok.2 (a2 v hv)]; rfl⟩)
  obtain ⟨es', hes', ⟨-, -, k3'⟩, b1, b2⟩ := fwd he'
  rw [hes] at hes'
  cases hes'
  rw [he']
  obtain ⟨v1, e1⟩ := exists_entry (k3 b!"mode" (by simp))
  obtain ⟨v2, e2⟩ := exists_entry (k3 b!"hash" (by simp))
  have f1 := strNode_unique (a1 _ e1) (b1 _ e1)
  have f2 := linkNode_unique (a2 _ e2) (b2 _ e2)
  congr 1
  cases e
  cases e'
  simp_all

/-- A tree entry builder accepts a node exactly when the node is a map with a
string mode and a link hash and nothing else. -/
theorem build_treeEntry (n : Node) (e : TreeEntry) :
    buildTreeEntry n = .ok e ↔ TreeEntryNode n e :=
  treeEntry_child_iff _ n e

/-! ## Tag -/

def tagP (k : Bytes) (o : Option Node) (t : Tag) : Prop :=
  ∀ v, o = some v →
    (k = b!"object" → LinkNode v t.object) ∧ (k = b!"type" → StrNode v t.typ) ∧
    (k = b!"tag" → StrNode v t.tag) ∧ (k = b!"tagger" → PersonNode v t.tagger) ∧
    (k = b!"message" → StrNode v t.message)

theorem tagP_none (k : Bytes) (t : Tag) : tagP k none t := fun _ h => by cases h

theorem tag_names : (tagStruct.fields.map Field.name).Nodup := by decide

theorem tag_respects : tagStruct.Respects tagP := by
  intro f hf w n w' _ h
  simp only [tagStruct, List.mem_cons, List.not_mem_nil, or_false] at hf
  rcases hf with rfl | rfl | rfl | rfl | rfl <;>
  · obtain ⟨b, h1, h2⟩ := Res.bind_eq_ok.1 h
    first | rw [assignString_ok] at h1 | rw [assignLink_ok] at h1 | rw [person_child_iff] at h1
    cases h2
    refine ⟨?_, ?_⟩
    · intro v hv
      cases hv
      refine ⟨?_, ?_, ?_, ?_, ?_⟩ <;> intro hk <;> first | exact h1 | exact absurd hk (by decide)
    · intro k m hk hp v hv
      obtain ⟨p1, p2, p3, p4, p5⟩ := hp v hv
      refine ⟨?_, ?_, ?_, ?_, ?_⟩ <;> intro hk' <;>
        first
        | exact absurd hk' hk
        | exact p1 hk'
        | exact p2 hk'
        | exact p3 hk'
        | exact p4 hk'
        | exact p5 hk'

theorem tagNode_of_denotes {n : Node} {t : Tag} (h : tagStruct.Denotes tagP n t) :
    TagNode n t := by
  obtain ⟨es, hes, h1, h2, h3, h4, -⟩ := h
  refine ⟨es, hes, ⟨h1, fun k hk => Or.inl (h2 k hk), ?_⟩, ?_, ?_, ?_, ?_, ?_⟩
  · intro k hk
    obtain ⟨f, hf, rfl⟩ := List.mem_map.1 (show k ∈ tagStruct.fields.map Field.name from hk)
    refine h3 f hf ?_
    simp only [tagStruct, List.mem_cons, List.not_mem_nil, or_false] at hf
    rcases hf with rfl | rfl | rfl | rfl | rfl <;> rfl
  · exact fun v hv => ((h4 _ _ hv) v rfl).1 rfl
  · exact fun v hv => ((h4 _ _ hv) v rfl).2.1 rfl
  · exact fun v hv => ((h4 _ _ hv) v rfl).2.2.1 rfl
  · exact fun v hv => ((h4 _ _ hv) v rfl).2.2.2.1 rfl
  · exact fun v hv => ((h4 _ _ hv) v rfl).2.2.2.2 rfl

theorem tag_self {n : Node} {t : Tag} (h : tagStruct.self n = some t) : n = .own (.tag t) := by
  simp only [tagStruct] at h
  split at h
  · cases h; rfl
  · cases h

theorem own_person (p : PersonInfo) : PersonNode (.own (.person p)) p :=
  personNode_of_denotes (person_own p)

theorem tag_own (t : Tag) : tagStruct.Denotes tagP (.own (.tag t)) t := by
  refine ⟨_, rfl, tag_names, fun _ hk => hk, ?_, ?_, fun _ _ _ => tagP_none _ _⟩
  · intro f hf _
    exact List.mem_map_of_mem hf
  · intro k v hv
    simp only [Own.entries, List.mem_cons, List.not_mem_nil, or_false, Prod.mk.injEq] at hv
    intro v' hv'
    cases hv'
    rcases hv with ⟨rfl, rfl⟩ | ⟨rfl, rfl⟩ | ⟨rfl, rfl⟩ | ⟨rfl, rfl⟩ | ⟨rfl, rfl⟩ <;>
      (refine ⟨?_, ?_, ?_, ?_, ?_⟩ <;> intro hk <;>
        first
        | exact own_string _
        | exact own_link _
        | exact own_person _
        | exact absurd hk (by decide))

/-- `AssignNode` and `Build` on any tag assembler that has a value to fill. -/
theorem tag_child_iff (w : Tag) (n : Node) (t : Tag) :
    tagStruct.child (some w) n = .ok t ↔ TagNode n t := by
  have fwd : ∀ {t}, tagStruct.child (some w) n = .ok t → TagNode n t := fun {t} h =>
    tagNode_of_denotes (tagStruct.child_denotes tag_names tagP tag_respects
      (fun n v hv => by rw [tag_self hv]; exact tag_own v)
      (fun f _ => tagP_none _ _) h)
  refine ⟨fwd, fun hp => ?_⟩
  obtain ⟨es, hes, ⟨k1, k2, k3⟩, a1, a2, a3, a4, a5⟩ := hp
  obtain ⟨t', ht'⟩ := tagStruct.child_exists tag_names tagP tag_respects
    (w := w) (fun f _ => tagP_none _ _) hes k1
    (fun k hk => (k2 k hk).resolve_right (fun h => by cases h))
    (fun f hf _ => k3 f.name (List.mem_map_of_mem hf))
    (by
      intro f hf v hv w _
      simp only [tagStruct, List.mem_cons, List.not_mem_nil, or_false] at hf
      rcases hf with rfl | rfl | rfl | rfl | rfl
      · exact ⟨_, by dsimp only; rw [assignLink_ok.2 (a1 v hv)]; rfl⟩
      · exact ⟨_, by dsimp only; rw [assignString_ok.2 (a2 v hv)]; rfl⟩
      · exact ⟨_, by dsimp only; rw [assignString_ok.2 (a3 v hv)]; rfl⟩
      · exact ⟨_, by dsimp only; rw [(person_child_iff w.tagger v _).2 (a4 v hv)]; rfl⟩
      · exact ⟨_, by dsimp only; rw [assignString_ok.2 (a5 v hv)]; rfl⟩)
  obtain ⟨es', hes', ⟨-, -, k3'⟩, b1, b2, b3, b4, b5⟩ := fwd ht'
  rw [hes] at hes'
  cases hes'
  rw [ht']
  obtain ⟨v1, e1⟩ := exists_entry (k3 b!"object" (by simp))
  obtain ⟨v2, e2⟩ := exists_entry (k3 b!"type" (by simp))
  obtain ⟨v3, e3⟩ := exists_entry (k3 b!"tag" (by simp))
  obtain ⟨v4, e4⟩ := exists_entry (k3 b!"tagger" (by simp))
  obtain ⟨v5, e5⟩ := exists_entry (k3 b!"message" (by simp))
  have f1 := linkNode_unique (a1 _ e1) (b1 _ e1)
  have f2 := strNode_unique (a2 _ e2) (b2 _ e2)
  have f3 := strNode_unique (a3 _ e3) (b3 _ e3)
  have f4 := personNode_unique (a4 _ e4) (b4 _ e4)
  have f5 := strNode_unique (a5 _ e5) (b5 _ e5)
  congr 1
  cases t
  cases t'
  simp_all

/-- A tag builder accepts a node exactly when the node is a map with each of the
five fields once, of the right kinds, and nothing else; the tag built has those
values. -/
theorem build_tag (n : Node) (t : Tag) : buildTag n = .ok t ↔ TagNode n t :=
  tag_child_iff _ n t

theorem tagNode_unique {n : Node} {a b : Tag} (h1 : TagNode n a) (h2 : TagNode n b) : a = b := by
  rw [← build_tag] at h1 h2
  exact Res.ok.inj (h1.symm.trans h2)

/-! ## Commit -/

def optP {α : Type} (o : Option Node) (R : Node → α → Prop) (x : Option α) : Prop :=
  match o with
  | none => x = none
  | some v => (v = .absent ∧ x = none) ∨ ∃ a, R v a ∧ x = some a

def listP {α : Type} (o : Option Node) (R : Node → α → Prop) (x : List α) : Prop :=
  match o with
  | none => x = []
  | some v => ListNode R v x

def reqP {α : Type} (o : Option Node) (R : Node → α → Prop) (x : α) : Prop :=
  ∀ v, o = some v → R v x

def commitP (k : Bytes) (o : Option Node) (c : Commit) : Prop :=
  (k = b!"tree" → reqP o LinkNode c.tree) ∧
  (k = b!"parents" → listP o LinkNode c.parents) ∧
  (k = b!"message" → reqP o StrNode c.message) ∧
  (k = b!"author" → optP o PersonNode c.author) ∧
  (k = b!"committer" → optP o PersonNode c.committer) ∧
  (k = b!"encoding" → optP o StrNode c.encoding) ∧
  (k = b!"signature" → optP o StrNode c.signature) ∧
  (k = b!"mergetag" → listP o TagNode c.mergetag) ∧
  (k = b!"other" → listP o StrNode c.other)

theorem commitP_zero (k : Bytes) : commitP k none Commit.zero := by
  refine ⟨?_, ?_, ?_, ?_, ?_, ?_, ?_, ?_, ?_⟩ <;> intro _ <;>
    first | rfl | exact fun v h => by cases h

theorem commit_names : (commitStruct.fields.map Field.name).Nodup := by decide

theorem assignLinkList_ok (n : Node) (ls : List Link) :
    assignLinkList [] n = .ok ls ↔ ListNode LinkNode n ls := by
  refine assignList_ok _ _ _ (fun n a => assignCommitLink_ok) ?_ n ls
  intro n l h
  split at h
  · cases h
    exact ⟨rfl, _, rfl, Each.map _ own_commitLink _⟩
  · cases h

theorem assignStringList_ok (n : Node) (ls : List Bytes) :
    assignStringList [] n = .ok ls ↔ ListNode StrNode n ls := by
  refine assignList_ok _ _ _ (fun n a => assignString_ok) ?_ n ls
  intro n l h
  split at h
  · cases h
    exact ⟨rfl, _, rfl, Each.map _ own_string _⟩
  · cases h

theorem own_tag (t : Tag) : TagNode (.own (.tag t)) t := tagNode_of_denotes (tag_own t)

theorem assignTagList_ok (n : Node) (ls : List Tag) :
    assignTagList [] n = .ok ls ↔ ListNode TagNode n ls := by
  refine assignList_ok _ _ _ (fun n a => tag_child_iff _ n a) ?_ n ls
  intro n l h
  split at h
  · cases h
    exact ⟨rfl, _, rfl, Each.map _ own_tag _⟩
  · cases h

theorem assignOnce_ok {α : Type} {r : Res α} {x : Option α} :
    assignOnce none r = .ok x ↔ ∃ a, r = .ok a ∧ x = some a := by
  simp only [assignOnce]
  constructor
  · intro h
    obtain ⟨a, h1, h2⟩ := Res.bind_eq_ok.1 h
    cases h2
    exact ⟨a, h1, rfl⟩
  · rintro ⟨a, rfl, rfl⟩
    rfl

/-- The author and committer assemblers of a commit have no person to fill: they
take nothing but a typed person. -/
theorem person_child_none {n : Node} {p : PersonInfo} :
    personStruct.child none n = .ok p ↔ n = .own (.person p) := by
  constructor
  · intro h
    rw [personStruct.child_none] at h
    repeat' split at h
    all_goals first | (cases h; done) | skip
    rename_i v hv
    cases h
    exact person_self hv
  · rintro rfl
    rfl

/-- Assignment to the author field, or one like it. -/
theorem assignAuthor_ok {n : Node} {x : Option PersonInfo} :
    assignOnce none (personStruct.child none n) = .ok x ↔
      ∃ p, n = .own (.person p) ∧ x = some p := by
  rw [assignOnce_ok]
  constructor
  · rintro ⟨p, h, rfl⟩
    exact ⟨p, person_child_none.1 h, rfl⟩
  · rintro ⟨p, h, rfl⟩
    exact ⟨p, person_child_none.2 h, rfl⟩

theorem assignOptString_ok {n : Node} {x : Option Bytes} :
    assignOnce none (assignString n) = .ok x ↔ ∃ b, StrNode n b ∧ x = some b := by
  simp only [assignOnce_ok, assignString_ok]

theorem assignOptGpgSig_ok {n : Node} {x : Option Bytes} :
    assignOnce none (assignGpgSig n) = .ok x ↔ ∃ b, StrNode n b ∧ x = some b := by
  simp only [assignOnce_ok, assignGpgSig_ok]

theorem commit_respects : commitStruct.Respects commitP := by
  intro f hf w n w' h0 h
  obtain ⟨z1, z2, z3, z4, z5, z6, z7, z8, z9⟩ := h0
  have keep : ∀ {w' : Commit} {k m},
      (k = b!"tree" → w'.tree = w.tree) → (k = b!"parents" → w'.parents = w.parents) →
      (k = b!"message" → w'.message = w.message) → (k = b!"author" → w'.author = w.author) →
      (k = b!"committer" → w'.committer = w.committer) →
      (k = b!"encoding" → w'.encoding = w.encoding) →
      (k = b!"signature" → w'.signature = w.signature) →
      (k = b!"mergetag" → w'.mergetag = w.mergetag) → (k = b!"other" → w'.other = w.other) →
      commitP k m w → commitP k m w' := by
    intro w' k m e1 e2 e3 e4 e5 e6 e7 e8 e9 ⟨q1, q2, q3, q4, q5, q6, q7, q8, q9⟩
    exact ⟨fun hk => e1 hk ▸ q1 hk, fun hk => e2 hk ▸ q2 hk, fun hk => e3 hk ▸ q3 hk,
      fun hk => e4 hk ▸ q4 hk, fun hk => e5 hk ▸ q5 hk, fun hk => e6 hk ▸ q6 hk,
      fun hk => e7 hk ▸ q7 hk, fun hk => e8 hk ▸ q8 hk, fun hk => e9 hk ▸ q9 hk⟩
  simp only [commitStruct, List.mem_cons, List.not_mem_nil, or_false] at hf
  rcases hf with rfl | rfl | rfl | rfl | rfl | rfl | rfl | rfl | rfl <;>
  · obtain ⟨b, h1, h2⟩ := Res.bind_eq_ok.1 h
    cases h2
    refine ⟨?_, ?_⟩
    · refine ⟨?_, ?_, ?_, ?_, ?_, ?_, ?_, ?_, ?_⟩ <;> intro hk <;>
        first
        | exact absurd hk (by decide)
        | (intro v hv; cases hv; exact assignTreeLink_ok.1 h1)
        | (intro v hv; cases hv; exact assignString_ok.1 h1)
        | (rw [show w.parents = [] from z2 rfl] at h1; exact (assignLinkList_ok _ _).1 h1)
        | (rw [show w.mergetag = [] from z8 rfl] at h1; exact (assignTagList_ok _ _).1 h1)
        | (rw [show w.other = [] from z9 rfl] at h1; exact (assignStringList_ok _ _).1 h1)
        | (rw [show w.author = none from z4 rfl] at h1
           obtain ⟨p, rfl, rfl⟩ := assignAuthor_ok.1 h1
           exact Or.inr ⟨p, own_person p, rfl⟩)
        | (rw [show w.committer = none from z5 rfl] at h1
           obtain ⟨p, rfl, rfl⟩ := assignAuthor_ok.1 h1
           exact Or.inr ⟨p, own_person p, rfl⟩)
        | (rw [show w.encoding = none from z6 rfl] at h1
           exact Or.inr (assignOptString_ok.1 h1))
        | (rw [show w.signature = none from z7 rfl] at h1
           exact Or.inr (assignOptGpgSig_ok.1 h1))
    · intro k m hk hp
      refine keep ?_ ?_ ?_ ?_ ?_ ?_ ?_ ?_ ?_ hp <;> intro hk' <;>
        first | rfl | exact absurd hk' hk

theorem commit_required :
    (commitStruct.fields.filter Field.required).map Field.name =
      [b!"tree", b!"parents", b!"message", b!"mergetag", b!"other"] := rfl

theorem commitNode_of_denotes {n : Node} {c : Commit} (h : commitStruct.Denotes commitP n c) :
    CommitNode n c := by
  obtain ⟨es, hes, h1, h2, h3, h4, h5⟩ := h
  have n5 : ∀ k ∈ commitStruct.fields.map Field.name, k ∉ es.map Prod.fst → commitP k none c := by
    intro k hk
    obtain ⟨f, hf, rfl⟩ := List.mem_map.1 hk
    exact h5 f hf
  refine ⟨es, hes, ⟨h1, ?_, ?_⟩, ?_, ?_, ?_, ⟨?_, ?_⟩, ⟨?_, ?_⟩, ⟨?_, ?_⟩, ⟨?_, ?_⟩, ?_, ?_⟩
  · intro k hk
    have := h2 k hk
    simp only [commitStruct, List.map_cons, List.map_nil, List.mem_cons, List.not_mem_nil,
      or_false] at this
    rcases this with rfl | rfl | rfl | rfl | rfl | rfl | rfl | rfl | rfl <;> decide
  · intro k hk
    rw [← commit_required] at hk
    obtain ⟨f, hf, rfl⟩ := List.mem_map.1 hk
    obtain ⟨hf, hr⟩ := List.mem_filter.1 hf
    exact h3 f hf hr
  · exact fun v hv => (h4 _ _ hv).1 rfl v rfl
  · exact fun v hv => (h4 _ _ hv).2.1 rfl
  · exact fun v hv => (h4 _ _ hv).2.2.1 rfl v rfl
  · exact fun hk => (n5 _ (by decide) hk).2.2.2.1 rfl
  · exact fun v hv => (h4 _ _ hv).2.2.2.1 rfl
  · exact fun hk => (n5 _ (by decide) hk).2.2.2.2.1 rfl
  · exact fun v hv => (h4 _ _ hv).2.2.2.2.1 rfl
  · exact fun hk => (n5 _ (by decide) hk).2.2.2.2.2.1 rfl
  · exact fun v hv => (h4 _ _ hv).2.2.2.2.2.1 rfl
  · exact fun hk => (n5 _ (by decide) hk).2.2.2.2.2.2.1 rfl
  · exact fun v hv => (h4 _ _ hv).2.2.2.2.2.2.1 rfl
  · exact fun v hv => (h4 _ _ hv).2.2.2.2.2.2.2.1 rfl
  · exact fun v hv => (h4 _ _ hv).2.2.2.2.2.2.2.2 rfl

theorem commit_self {n : Node} {c : Commit} (h : commitStruct.self n = some c) :
    n = .own (.commit c) := by
  simp only [commitStruct] at h
  split at h
  · cases h; rfl
  · cases h

theorem optP_optNode {α : Type} {R : Node → α → Prop} (f : α → Own) (h : ∀ a, R (.own (f a)) a)
    (x : Option α) : optP (some (optNode f x)) R x := by
  cases x with
  | none => exact Or.inl ⟨rfl, rfl⟩
  | some a => exact Or.inr ⟨a, h a, rfl⟩

theorem own_linkList (l : List Link) : ListNode LinkNode (.own (.linkList l)) l :=
  ⟨_, rfl, Each.map _ own_commitLink _⟩
theorem own_stringList (l : List Bytes) : ListNode StrNode (.own (.stringList l)) l :=
  ⟨_, rfl, Each.map _ own_string _⟩
theorem own_tagList (l : List Tag) : ListNode TagNode (.own (.tagList l)) l :=
  ⟨_, rfl, Each.map _ own_tag _⟩

theorem commit_own (c : Commit) : commitStruct.Denotes commitP (.own (.commit c)) c := by
  refine ⟨_, rfl, commit_names, fun _ hk => hk, ?_, ?_, ?_⟩
  · intro f hf _
    exact List.mem_map_of_mem hf
  · intro k v hv
    simp only [Own.entries, List.mem_cons, List.not_mem_nil, or_false, Prod.mk.injEq] at hv
    rcases hv with ⟨rfl, rfl⟩ | ⟨rfl, rfl⟩ | ⟨rfl, rfl⟩ | ⟨rfl, rfl⟩ | ⟨rfl, rfl⟩ | ⟨rfl, rfl⟩ |
      ⟨rfl, rfl⟩ | ⟨rfl, rfl⟩ | ⟨rfl, rfl⟩ <;>
      (refine ⟨?_, ?_, ?_, ?_, ?_, ?_, ?_, ?_, ?_⟩ <;> intro hk <;>
        first
        | exact absurd hk (by decide)
        | (intro v hv; cases hv; exact own_treeLink _)
        | (intro v hv; cases hv; exact own_string _)
        | exact own_linkList _
        | exact own_stringList _
        | exact own_tagList _
        | exact optP_optNode _ own_person _
        | exact optP_optNode _ own_string _
        | exact optP_optNode _ own_gpgSig _)
  · intro f hf hk
    exact absurd (List.mem_map_of_mem hf) hk

/-- A commit builder succeeds only on a node that is a map with the required
fields once, optional fields at most once, nothing else, and values of the right
kinds; the commit built has exactly those values. -/
theorem build_commit_sound {n : Node} {c : Commit} (h : buildCommit n = .ok c) : CommitNode n c :=
  commitNode_of_denotes (commitStruct.child_denotes commit_names commitP commit_respects
    (fun n v hv => by rw [commit_self hv]; exact commit_own v)
    (fun _ _ => commitP_zero _) h)

theorem listNode_unique {α : Type} {R : Node → α → Prop} (hR : ∀ n a b, R n a → R n b → a = b)
    {n : Node} {a b : List α} (h1 : ListNode R n a) (h2 : ListNode R n b) : a = b := by
  obtain ⟨ns, e1, h1⟩ := h1
  obtain ⟨ms, e2, h2⟩ := h2
  rw [e1] at e2
  cases e2
  exact Each.unique hR h1 h2

theorem optAt_unique {α : Type} {R : Node → α → Prop} (hR : ∀ n a b, R n a → R n b → a = b)
    (hA : ∀ a, ¬ R .absent a) {es : List (Bytes × Node)} {k : Bytes} {a b : Option α}
    (h1 : OptAt es k R a) (h2 : OptAt es k R b) : a = b := by
  by_cases hk : k ∈ es.map Prod.fst
  · obtain ⟨v, hv⟩ := exists_entry hk
    rcases h1.2 v hv with ⟨rfl, rfl⟩ | ⟨x, hx, rfl⟩
    · rcases h2.2 _ hv with ⟨-, rfl⟩ | ⟨y, hy, rfl⟩
      · rfl
      · exact absurd hy (hA y)
    · rcases h2.2 _ hv with ⟨rfl, rfl⟩ | ⟨y, hy, rfl⟩
      · exact absurd hx (hA x)
      · rw [hR _ _ _ hx hy]
  · rw [h1.1 hk, h2.1 hk]

theorem strNode_absent (b : Bytes) : ¬ StrNode .absent b := fun h => by cases h.1
theorem personNode_absent (p : PersonInfo) : ¬ PersonNode .absent p := by
  rintro ⟨es, h, -⟩
  cases h

/-- A node denotes at most one commit. -/
theorem commitNode_unique {n : Node} {a b : Commit} (h1 : CommitNode n a) (h2 : CommitNode n b) :
    a = b := by
  obtain ⟨es, hes, ⟨-, -, k3⟩, a1, a2, a3, a4, a5, a6, a7, a8, a9⟩ := h1
  obtain ⟨es', hes', -, b1, b2, b3, b4, b5, b6, b7, b8, b9⟩ := h2
  rw [hes] at hes'
  cases hes'
  obtain ⟨v1, e1⟩ := exists_entry (k3 b!"tree" (by decide))
  obtain ⟨v2, e2⟩ := exists_entry (k3 b!"parents" (by decide))
  obtain ⟨v3, e3⟩ := exists_entry (k3 b!"message" (by decide))
  obtain ⟨v8, e8⟩ := exists_entry (k3 b!"mergetag" (by decide))
  obtain ⟨v9, e9⟩ := exists_entry (k3 b!"other" (by decide))
  have f1 := linkNode_unique (a1 _ e1) (b1 _ e1)
  have f2 := listNode_unique (R := LinkNode) (fun _ _ _ => linkNode_unique) (a2 _ e2) (b2 _ e2)
  have f3 := strNode_unique (a3 _ e3) (b3 _ e3)
  have f4 := optAt_unique (R := PersonNode) (fun _ _ _ => personNode_unique) personNode_absent a4 b4
  have f5 := optAt_unique (R := PersonNode) (fun _ _ _ => personNode_unique) personNode_absent a5 b5
  have f6 := optAt_unique (R := StrNode) (fun _ _ _ => strNode_unique) strNode_absent a6 b6
  have f7 := optAt_unique (R := StrNode) (fun _ _ _ => strNode_unique) strNode_absent a7 b7
  have f8 := listNode_unique (R := TagNode) (fun _ _ _ => tagNode_unique) (a8 _ e8) (b8 _ e8)
  have f9 := listNode_unique (R := StrNode) (fun _ _ _ => strNode_unique) (a9 _ e9) (b9 _ e9)
  cases a
  cases b
  simp_all

/-- What a commit builder asks beyond the schema of a node that is not a typed
commit: no value is `ipld.Absent`, and author and committer are typed persons. -/
def BuilderExtra (n : Node) : Prop :=
  ∀ es, n.mapIterator = some es →
    (∀ k v, (k, v) ∈ es → v ≠ .absent) ∧
    At es b!"author" (∃ p, · = .own (.person p)) ∧
    At es b!"committer" (∃ p, · = .own (.person p))

theorem run_values (S : Struct W) {P : Bytes → Node → Prop}
    (hP : ∀ f ∈ S.fields, ∀ w n w', f.assign w n = .ok w' → P f.name n)
    {es : List (Bytes × Node)} {w w' : W} {s : Nat} (h : S.run es w s = .ok w') :
    ∀ k v, (k, v) ∈ es → P k v := by
  induction es generalizing w s with
  | nil => intro k v hv; cases hv
  | cons e r ih =>
    obtain ⟨k, v⟩ := e
    unfold Struct.run at h
    split at h
    · cases h
    · rename_i i hi
      split at h
      · cases h
      · obtain ⟨f, hf, hname⟩ := S.find_lt hi
        rw [hf] at h
        obtain ⟨w1, h1, h2⟩ := Res.bind_eq_ok.1 h
        intro k' v' hv
        rcases List.mem_cons.1 hv with hv | hv
        · cases hv
          rw [← hname]
          exact hP f (List.mem_of_getElem? hf) _ _ _ h1
        · exact ih h2 _ _ hv

theorem assignOnce_some {α : Type} {old : Option α} {r : Res α} {x : Option α}
    (h : assignOnce old r = .ok x) : ∃ a, r = .ok a := by
  cases old with
  | some _ => cases h
  | none =>
    obtain ⟨a, h, -⟩ := assignOnce_ok.1 h
    exact ⟨a, h⟩

theorem commit_values {f : Field Commit} (hf : f ∈ commitStruct.fields) {w : Commit} {n : Node}
    {w' : Commit} (h : f.assign w n = .ok w') :
    n ≠ .absent ∧ (f.name = b!"author" → ∃ p, n = .own (.person p)) ∧
      (f.name = b!"committer" → ∃ p, n = .own (.person p)) := by
  refine ⟨?_, ?_, ?_⟩
  · rintro rfl
    simp only [commitStruct, List.mem_cons, List.not_mem_nil, or_false] at hf
    rcases hf with rfl | rfl | rfl | rfl | rfl | rfl | rfl | rfl | rfl
    · cases h
    · cases h
    · cases h
    · obtain ⟨_, h, -⟩ := Res.bind_eq_ok.1 h
      obtain ⟨_, h⟩ := assignOnce_some h
      cases h
    · obtain ⟨_, h, -⟩ := Res.bind_eq_ok.1 h
      obtain ⟨_, h⟩ := assignOnce_some h
      cases h
    · obtain ⟨_, h, -⟩ := Res.bind_eq_ok.1 h
      obtain ⟨_, h⟩ := assignOnce_some h
      cases h
    · obtain ⟨_, h, -⟩ := Res.bind_eq_ok.1 h
      obtain ⟨_, h⟩ := assignOnce_some h
      cases h
    · cases h
    · cases h
  · intro hn
    simp only [commitStruct, List.mem_cons, List.not_mem_nil, or_false] at hf
    rcases hf with rfl | rfl | rfl | rfl | rfl | rfl | rfl | rfl | rfl <;>
      first
      | exact absurd hn (by decide)
      | (obtain ⟨_, h, -⟩ := Res.bind_eq_ok.1 h
         obtain ⟨p, h⟩ := assignOnce_some h
         exact ⟨p, person_child_none.1 h⟩)
  · intro hn
    simp only [commitStruct, List.mem_cons, List.not_mem_nil, or_false] at hf
    rcases hf with rfl | rfl | rfl | rfl | rfl | rfl | rfl | rfl | rfl <;>
      first
      | exact absurd hn (by decide)
      | (obtain ⟨_, h, -⟩ := Res.bind_eq_ok.1 h
         obtain ⟨p, h⟩ := assignOnce_some h
         exact ⟨p, person_child_none.1 h⟩)

/-- A typed commit is copied. -/
theorem build_commit_own (c : Commit) : buildCommit (.own (.commit c)) = .ok c := rfl

/-- Exactly which other nodes a commit builder accepts: those that denote a
commit under the schema and whose author and committer are typed persons. -/
theorem build_commit_iff {n : Node} (hn : ∀ c, n ≠ .own (.commit c)) (c : Commit) :
    buildCommit n = .ok c ↔ CommitNode n c ∧ BuilderExtra n := by
  have hself : commitStruct.self n = none := by
    cases h : commitStruct.self n with
    | none => rfl
    | some c => exact absurd (commit_self h) (hn c)
  constructor
  · intro h
    refine ⟨build_commit_sound h, ?_⟩
    intro es hes
    have h' : commitStruct.child (some Commit.zero) n = .ok c := h
    rw [commitStruct.child_some, hself, hes] at h'
    split at h'
    · cases h'
    · dsimp only at h'
      split at h'
      · cases h'
      · have hv := run_values commitStruct
          (P := fun k n => n ≠ .absent ∧ (k = b!"author" → ∃ p, n = .own (.person p)) ∧
            (k = b!"committer" → ∃ p, n = .own (.person p)))
          (fun f hf w n w' h => commit_values hf h) h'
        exact ⟨fun k v h => (hv k v h).1, fun v h => (hv _ v h).2.1 rfl,
          fun v h => (hv _ v h).2.2 rfl⟩
  · rintro ⟨hc, hx⟩
    have hc0 := hc
    obtain ⟨es, hes, ⟨k1, k2, k3⟩, a1, a2, a3, a4, a5, a6, a7, a8, a9⟩ := hc
    obtain ⟨x1, x2, x3⟩ := hx es hes
    obtain ⟨c', hc'⟩ := commitStruct.child_exists commit_names commitP commit_respects
      (w := Commit.zero) (fun _ _ => commitP_zero _) hes k1
      (by
        intro k hk
        have := k2 k hk
        simp only [List.mem_cons, List.not_mem_nil, or_false] at this
        rcases this with (rfl | rfl | rfl | rfl | rfl) | rfl | rfl | rfl | rfl <;> decide)
      (by
        intro f hf hr
        refine k3 f.name ?_
        rw [← commit_required]
        exact List.mem_map_of_mem (List.mem_filter.2 ⟨hf, hr⟩))
      (by
        intro f hf v hv w hw
        obtain ⟨z1, z2, z3, z4, z5, z6, z7, z8, z9⟩ := hw
        have hne := x1 _ v hv
        simp only [commitStruct, List.mem_cons, List.not_mem_nil, or_false] at hf
        rcases hf with rfl | rfl | rfl | rfl | rfl | rfl | rfl | rfl | rfl
        · exact ⟨_, by dsimp only; rw [assignTreeLink_ok.2 (a1 v hv)]; rfl⟩
        · exact ⟨_, by
            dsimp only
            rw [show w.parents = [] from z2 rfl, (assignLinkList_ok _ _).2 (a2 v hv)]; rfl⟩
        · exact ⟨_, by dsimp only; rw [assignString_ok.2 (a3 v hv)]; rfl⟩
        · obtain ⟨p, rfl⟩ := x2 v hv
          exact ⟨_, by
            dsimp only
            rw [show w.author = none from z4 rfl, assignAuthor_ok.2 ⟨p, rfl, rfl⟩]; rfl⟩
        · obtain ⟨p, rfl⟩ := x3 v hv
          exact ⟨_, by
            dsimp only
            rw [show w.committer = none from z5 rfl, assignAuthor_ok.2 ⟨p, rfl, rfl⟩]; rfl⟩
        · rcases a6.2 v hv with ⟨h, -⟩ | ⟨b, hb, -⟩
          · exact absurd h hne
          · exact ⟨_, by
              dsimp only
              rw [show w.encoding = none from z6 rfl, assignOptString_ok.2 ⟨b, hb, rfl⟩]; rfl⟩
        · rcases a7.2 v hv with ⟨h, -⟩ | ⟨b, hb, -⟩
          · exact absurd h hne
          · exact ⟨_, by
              dsimp only
              rw [show w.signature = none from z7 rfl, assignOptGpgSig_ok.2 ⟨b, hb, rfl⟩]; rfl⟩
        · exact ⟨_, by
            dsimp only
            rw [show w.mergetag = [] from z8 rfl, (assignTagList_ok _ _).2 (a8 v hv)]; rfl⟩
        · exact ⟨_, by
            dsimp only
            rw [show w.other = [] from z9 rfl, (assignStringList_ok _ _).2 (a9 v hv)]; rfl⟩)
    have := commitNode_unique hc0 (build_commit_sound hc')
    rw [this]
    exact hc'

/-! ## The package's own representation views -/

theorem repr_person (p : PersonInfo) : PersonNode (.repr (.person p)) p := own_person p

theorem repr_treeEntry (e : TreeEntry) : TreeEntryNode (.repr (.treeEntry e)) e :=
  treeEntryNode_of_denotes (treeEntry_own e)

theorem repr_tag (t : Tag) : TagNode (.repr (.tag t)) t := by
  refine ⟨_, rfl, ⟨tag_names, fun _ hk => Or.inl hk, fun _ hk => hk⟩, ?_, ?_, ?_, ?_, ?_⟩ <;>
  · intro v hv
    simp only [Own.reprEntries, List.mem_cons, List.not_mem_nil, or_false, Prod.mk.injEq] at hv
    rcases hv with ⟨hk, rfl⟩ | ⟨hk, rfl⟩ | ⟨hk, rfl⟩ | ⟨hk, rfl⟩ | ⟨hk, rfl⟩ <;>
      first
      | exact absurd hk (by decide)
      | exact own_link _
      | exact own_string _
      | exact repr_person _

theorem repr_linkList (l : List Link) : ListNode LinkNode (.repr (.linkList l)) l :=
  ⟨_, rfl, Each.map _ own_commitLink _⟩
theorem repr_stringList (l : List Bytes) : ListNode StrNode (.repr (.stringList l)) l :=
  ⟨_, rfl, Each.map _ own_string _⟩
theorem repr_tagList (l : List Tag) : ListNode TagNode (.repr (.tagList l)) l :=
  ⟨_, rfl, Each.map _ repr_tag _⟩

theorem optEntry_mem {α : Type} {k k' : Bytes} {f : α → Own} {x : Option α} {v : Node} :
    (k', v) ∈ optEntry k f x ↔ k' = k ∧ ∃ a, x = some a ∧ v = (f a).representation := by
  cases x with
  | none => simp [optEntry]
  | some a => simp [optEntry]

theorem commit_reprEntries {c : Commit} {k : Bytes} {v : Node} :
    (k, v) ∈ (Own.commit c).reprEntries ↔
      (k = b!"tree" ∧ v = .own (.treeLink c.tree)) ∨
      (k = b!"parents" ∧ v = .repr (.linkList c.parents)) ∨
      (k = b!"message" ∧ v = .own (.string c.message)) ∨
      (k = b!"author" ∧ ∃ a, c.author = some a ∧ v = .repr (.person a)) ∨
      (k = b!"committer" ∧ ∃ a, c.committer = some a ∧ v = .repr (.person a)) ∨
      (k = b!"encoding" ∧ ∃ a, c.encoding = some a ∧ v = .own (.string a)) ∨
      (k = b!"signature" ∧ ∃ a, c.signature = some a ∧ v = .own (.gpgSig a)) ∨
      (k = b!"mergetag" ∧ v = .repr (.tagList c.mergetag)) ∨
      (k = b!"other" ∧ v = .repr (.stringList c.other)) := by
  simp only [Own.reprEntries, List.mem_append, optEntry_mem, List.mem_cons, List.not_mem_nil,
    or_false, Prod.mk.injEq, Own.representation, or_assoc]

def optKey (k : Bytes) (b : Bool) : List Bytes := if b then [k] else []

theorem optEntry_keys {α : Type} (k : Bytes) (f : α → Own) (x : Option α) :
    (optEntry k f x).map Prod.fst = optKey k x.isSome := by
  cases x <;> rfl

def reprKeys (a b c d : Bool) : List Bytes :=
  [b!"tree", b!"parents", b!"message"] ++ optKey b!"author" a ++ optKey b!"committer" b ++
    optKey b!"encoding" c ++ optKey b!"signature" d ++ [b!"mergetag", b!"other"]

theorem reprKeys_ok (a b c d : Bool) :
    (reprKeys a b c d).Nodup ∧
    (∀ k ∈ reprKeys a b c d, k ∈ [b!"tree", b!"parents", b!"message", b!"mergetag", b!"other"] ∨
      k ∈ [b!"author", b!"committer", b!"encoding", b!"signature"]) ∧
    (∀ k ∈ [b!"tree", b!"parents", b!"message", b!"mergetag", b!"other"],
      k ∈ reprKeys a b c d) := by
  cases a <;> cases b <;> cases c <;> cases d <;> decide

theorem commit_reprKeys (c : Commit) :
    (Own.commit c).reprEntries.map Prod.fst =
      reprKeys c.author.isSome c.committer.isSome c.encoding.isSome c.signature.isSome := by
  simp only [Own.reprEntries, List.map_append, optEntry_keys, reprKeys, List.map_cons, List.map_nil]

/-- The representation view of a commit denotes the commit. -/
theorem repr_commit (c : Commit) : CommitNode (.repr (.commit c)) c := by
  have key : ∀ k, k ∈ (Own.commit c).reprEntries.map Prod.fst ↔ ∃ v, (k, v) ∈ (Own.commit c).reprEntries := by
    intro k
    constructor
    · exact exists_entry
    · rintro ⟨v, hv⟩
      exact List.mem_map_of_mem (f := Prod.fst) hv
  refine ⟨_, rfl, ?_, ?_, ?_, ?_, ?_, ?_, ?_, ?_, ?_, ?_⟩
  · unfold KeysOk
    rw [commit_reprKeys]
    exact reprKeys_ok _ _ _ _
  · intro v hv
    rw [commit_reprEntries] at hv
    simp at hv
    rw [hv]; exact own_treeLink _
  · intro v hv
    rw [commit_reprEntries] at hv
    simp at hv
    rw [hv]; exact repr_linkList _
  · intro v hv
    rw [commit_reprEntries] at hv
    simp at hv
    rw [hv]; exact own_string _
  · refine ⟨fun hk => ?_, fun v hv => ?_⟩
    · cases h : c.author with
      | none => rfl
      | some a => exact absurd ((key _).2 ⟨_, commit_reprEntries.2 (by simp [h]; rfl)⟩) hk
    · rw [commit_reprEntries] at hv
      simp at hv
      obtain ⟨a, h, rfl⟩ := hv
      exact Or.inr ⟨a, repr_person _, h⟩
  · refine ⟨fun hk => ?_, fun v hv => ?_⟩
    · cases h : c.committer with
      | none => rfl
      | some a => exact absurd ((key _).2 ⟨_, commit_reprEntries.2 (by simp [h]; rfl)⟩) hk
    · rw [commit_reprEntries] at hv
      simp at hv
      obtain ⟨a, h, rfl⟩ := hv
      exact Or.inr ⟨a, repr_person _, h⟩
  · refine ⟨fun hk => ?_, fun v hv => ?_⟩
    · cases h : c.encoding with
      | none => rfl
      | some a => exact absurd ((key _).2 ⟨_, commit_reprEntries.2 (by simp [h]; rfl)⟩) hk
    · rw [commit_reprEntries] at hv
      simp at hv
      obtain ⟨a, h, rfl⟩ := hv
      exact Or.inr ⟨a, own_string _, h⟩
  · refine ⟨fun hk => ?_, fun v hv => ?_⟩
    · cases h : c.signature with
      | none => rfl
      | some a => exact absurd ((key _).2 ⟨_, commit_reprEntries.2 (by simp [h]; rfl)⟩) hk
    · rw [commit_reprEntries] at hv
      simp at hv
      obtain ⟨a, h, rfl⟩ := hv
      exact Or.inr ⟨a, own_gpgSig _, h⟩
  · intro v hv
    rw [commit_reprEntries] at hv
    simp at hv
    rw [hv]; exact repr_tagList _
  · intro v hv
    rw [commit_reprEntries] at hv
    simp at hv
    rw [hv]; exact repr_stringList _

/-- Building from a representation view copies the value, for persons, tree
entries and tags. -/
theorem build_repr (p : PersonInfo) (e : TreeEntry) (t : Tag) :
    buildPerson (.repr (.person p)) = .ok p ∧ buildTreeEntry (.repr (.treeEntry e)) = .ok e ∧
      buildTag (.repr (.tag t)) = .ok t :=
  ⟨(build_person _ _).2 (repr_person p), (build_treeEntry _ _).2 (repr_treeEntry e),
    (build_tag _ _).2 (repr_tag t)⟩

/-- The commit builder copies the representation view of a commit that has
neither author nor committer. -/
theorem build_repr_commit {c : Commit} (h1 : c.author = none) (h2 : c.committer = none) :
    buildCommit (.repr (.commit c)) = .ok c := by
  rw [build_commit_iff (fun _ h => by cases h)]
  refine ⟨repr_commit c, ?_⟩
  intro es hes
  cases hes
  refine ⟨?_, ?_, ?_⟩
  · intro k v hv
    rw [commit_reprEntries] at hv
    rcases hv with ⟨-, rfl⟩ | ⟨-, rfl⟩ | ⟨-, rfl⟩ | ⟨-, _, -, rfl⟩ | ⟨-, _, -, rfl⟩ |
      ⟨-, _, -, rfl⟩ | ⟨-, _, -, rfl⟩ | ⟨-, rfl⟩ | ⟨-, rfl⟩ <;> exact fun h => by cases h
  · intro v hv
    rw [commit_reprEntries] at hv
    simp [h1] at hv
  · intro v hv
    rw [commit_reprEntries] at hv
    simp [h2] at hv

theorem child_none_repr_person (p : PersonInfo) :
    personStruct.child none (.repr (.person p)) = .panic := rfl

/-- The commit builder is not complete for the schema. Every commit with an
author or a committer has a representation view that denotes it, and assigning
that view panics. -/
theorem build_repr_commit_panics {c : Commit} (h : c.author ≠ none ∨ c.committer ≠ none) :
    CommitNode (.repr (.commit c)) c ∧ buildCommit (.repr (.commit c)) = .panic := by
  refine ⟨repr_commit c, ?_⟩
  have hl := (assignLinkList_ok _ _).2 (repr_linkList c.parents)
  show commitStruct.child (some Commit.zero) _ = _
  rw [commitStruct.child_some]
  show commitStruct.run (Own.commit c).reprEntries Commit.zero 0 = .panic
  rcases c with ⟨tr, pa, me, au, co, en, si, mt, ot⟩
  cases au with
  | some a =>
    show (assignLinkList [] (.repr (.linkList pa)) >>= _) >>= _ = _
    rw [hl]
    rfl
  | none =>
    cases co with
    | some a =>
      show (assignLinkList [] (.repr (.linkList pa)) >>= _) >>= _ = _
      rw [hl]
      rfl
    | none => simp at h

/-- The hypotheses of the builder theorems are met by ordinary foreign maps: a
tag given as a plain map with the keys in another order is accepted, and the same
map with a key repeated, missing or unknown, or a value of the wrong kind, is
refused. -/
example :
    let c : Link := .cid ⟨1, 0x78, b!"x"⟩
    let p : Node := .map [(b!"name", .str b!"A"), (b!"email", .str b!"a@b"),
      (b!"timezone", .str b!"+0000"), (b!"date", .str b!"1")]
    buildTag (.map [(b!"tagger", p), (b!"object", .link c), (b!"type", .str b!"commit"),
      (b!"message", .str b!"m"), (b!"tag", .str b!"v1")]) =
        .ok ⟨c, b!"commit", b!"v1", ⟨b!"A", b!"a@b", b!"1", b!"+0000"⟩, b!"m"⟩ ∧
    buildPerson (.map [(b!"name", .str b!"A"), (b!"name", .str b!"A")]) = .err .repeatedKey ∧
    buildPerson (.map [(b!"name", .str b!"A")]) = .err .missingField ∧
    buildPerson (.map [(b!"nick", .str b!"A")]) = .err .invalidKey ∧
    buildPerson (.map [(b!"name", .int 3)]) = .err .wrongKind := by
  decide +kernel

end Verif.Props
