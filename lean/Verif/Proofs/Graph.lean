import Verif.Spec.Graph
import Verif.Proofs.Lookup

/-!
# Links inside objects
-/

namespace Verif

open Spec

theorem reach_leaf {n : Node} {p : List Seg} {m : Node} (h1 : n.mapIterator = none)
    (h2 : n.listIterator = none) (h : Reach n p m) : p = [] ∧ m = n := by
  cases h with
  | here => exact ⟨rfl, rfl⟩
  | step _ _ _ _ _ hc _ => exact absurd hc (child_none _ _ _ h1 h2)

theorem reach_string {x : Bytes} {r : List Seg} {l : Node} (h : Reach (.own (.string x)) r l) :
    l.kind ≠ .link := by
  obtain ⟨_, rfl⟩ := reach_leaf rfl rfl h
  simp [Node.kind, Own.kind]

theorem reach_gpgSig {x : Bytes} {r : List Seg} {l : Node} (h : Reach (.own (.gpgSig x)) r l) :
    l.kind ≠ .link := by
  obtain ⟨_, rfl⟩ := reach_leaf rfl rfl h
  simp [Node.kind, Own.kind]

theorem reach_absent {r : List Seg} {l : Node} (h : Reach .absent r l) : l.kind ≠ .link := by
  obtain ⟨_, rfl⟩ := reach_leaf rfl rfl h
  simp [Node.kind]

theorem reach_link {v : Own} (hv : v.kind = .link) {r : List Seg} {l : Node} (h : Reach (.own v) r l) :
    r = [] ∧ l = .own v :=
  reach_leaf (by simp [Node.mapIterator, hv]) (by simp [Node.listIterator, hv]) h

/-- The entries of a node of map kind, in the view of the node. -/
theorem child_entries {n : Node} {v : Own} (hn : NodeOf n v) (hk : v.kind = .map) {g : Seg} {m : Node}
    (h : Child n g m) : ∃ k, Spells g k ∧ ((n = .own v ∧ (k, m) ∈ v.entries) ∨ (n = .repr v ∧ (k, m) ∈ v.reprEntries)) := by
  rcases h with ⟨es, k, h', hm, hs⟩ | ⟨xs, i, h', _, _⟩
  · refine ⟨k, hs, ?_⟩
    rcases hn with rfl | rfl <;> simp only [Node.mapIterator, hk, if_true, Option.some.injEq] at h' <;> subst h'
    · exact .inl ⟨rfl, hm⟩
    · exact .inr ⟨rfl, hm⟩
  · rcases hn with rfl | rfl <;> simp [Node.listIterator, hk] at h'

theorem child_elems {n : Node} {v : Own} (hn : NodeOf n v) (hk : v.kind = .list) {g : Seg} {m : Node}
    (h : Child n g m) : ∃ i : Nat, StandsFor g i ∧ (v.elems[i]? = some m ∨ v.reprElems[i]? = some m) := by
  rcases h with ⟨es, k, h', hm, hs⟩ | ⟨xs, i, h', hm, hs⟩
  · rcases hn with rfl | rfl <;> simp [Node.mapIterator, hk] at h'
  · refine ⟨i, hs, ?_⟩
    rcases hn with rfl | rfl <;> simp only [Node.listIterator, hk, if_true, Option.some.injEq] at h' <;> subst h'
    · exact .inl hm
    · exact .inr hm

theorem reach_person {n : Node} {p : PersonInfo} (hn : NodeOf n (.person p)) {r : List Seg} {l : Node}
    (h : Reach n r l) : l.kind ≠ .link := by
  cases h with
  | here => rcases hn with rfl | rfl <;> simp [Node.kind, Own.kind]
  | step _ g m gs _ hc hr =>
    obtain ⟨k, _, ⟨_, hm⟩ | ⟨_, hm⟩⟩ := child_entries hn rfl hc
    · simp only [Own.entries, List.mem_cons, Prod.mk.injEq, List.not_mem_nil, or_false] at hm
      rcases hm with ⟨_, rfl⟩ | ⟨_, rfl⟩ | ⟨_, rfl⟩ | ⟨_, rfl⟩ <;> exact reach_string hr
    · simp only [Own.reprEntries, Own.representation, List.mem_cons, Prod.mk.injEq, List.not_mem_nil, or_false] at hm
      rcases hm with ⟨_, rfl⟩ | ⟨_, rfl⟩ | ⟨_, rfl⟩ | ⟨_, rfl⟩ <;> exact reach_string hr

theorem reach_tag {n : Node} {t : Tag} (hn : NodeOf n (.tag t)) {r : List Seg} {l : Node}
    (h : Reach n r l) (hl : l.kind = .link) :
    ∃ g, r = [g] ∧ Spells g b!"object" ∧ l = .own (.link t.object) := by
  cases h with
  | here => rcases hn with rfl | rfl <;> simp [Node.kind, Own.kind] at hl
  | step _ g m gs _ hc hr =>
    obtain ⟨k, hs, ⟨_, hm⟩ | ⟨_, hm⟩⟩ := child_entries hn rfl hc
    · simp only [Own.entries, List.mem_cons, Prod.mk.injEq, List.not_mem_nil, or_false] at hm
      rcases hm with ⟨rfl, rfl⟩ | ⟨_, rfl⟩ | ⟨_, rfl⟩ | ⟨_, rfl⟩ | ⟨_, rfl⟩
      · obtain ⟨rfl, rfl⟩ := reach_link rfl hr
        exact ⟨g, rfl, hs, rfl⟩
      · exact absurd hl (reach_string hr)
      · exact absurd hl (reach_string hr)
      · exact absurd hl (reach_person (.inl rfl) hr)
      · exact absurd hl (reach_string hr)
    · simp only [Own.reprEntries, Own.representation, List.mem_cons, Prod.mk.injEq, List.not_mem_nil, or_false] at hm
      rcases hm with ⟨rfl, rfl⟩ | ⟨_, rfl⟩ | ⟨_, rfl⟩ | ⟨_, rfl⟩ | ⟨_, rfl⟩
      · obtain ⟨rfl, rfl⟩ := reach_link rfl hr
        exact ⟨g, rfl, hs, rfl⟩
      · exact absurd hl (reach_string hr)
      · exact absurd hl (reach_string hr)
      · exact absurd hl (reach_person (.inr rfl) hr)
      · exact absurd hl (reach_string hr)

theorem reach_treeEntry {n : Node} {e : TreeEntry} (hn : NodeOf n (.treeEntry e)) {r : List Seg} {l : Node}
    (h : Reach n r l) (hl : l.kind = .link) :
    ∃ g, r = [g] ∧ Spells g b!"hash" ∧ l = .own (.link e.hash) := by
  cases h with
  | here => rcases hn with rfl | rfl <;> simp [Node.kind, Own.kind] at hl
  | step _ g m gs _ hc hr =>
    obtain ⟨k, hs, ⟨_, hm⟩ | ⟨_, hm⟩⟩ := child_entries hn rfl hc
    · simp only [Own.entries, List.mem_cons, Prod.mk.injEq, List.not_mem_nil, or_false] at hm
      rcases hm with ⟨_, rfl⟩ | ⟨rfl, rfl⟩
      · exact absurd hl (reach_string hr)
      · obtain ⟨rfl, rfl⟩ := reach_link rfl hr
        exact ⟨g, rfl, hs, rfl⟩
    · simp only [Own.reprEntries, Own.representation, List.mem_cons, Prod.mk.injEq, List.not_mem_nil, or_false] at hm
      rcases hm with ⟨_, rfl⟩ | ⟨rfl, rfl⟩
      · exact absurd hl (reach_string hr)
      · obtain ⟨rfl, rfl⟩ := reach_link rfl hr
        exact ⟨g, rfl, hs, rfl⟩

theorem reach_tree {n : Node} {t : Tree} (hn : NodeOf n (.tree t)) {r : List Seg} {l : Node}
    (h : Reach n r l) (hl : l.kind = .link) :
    ∃ g f row, r = [g, f] ∧ row ∈ t.t ∧ Spells g row.1 ∧ Spells f b!"hash" ∧ l = .own (.link row.2.hash) := by
  cases h with
  | here => rcases hn with rfl | rfl <;> simp [Node.kind, Own.kind] at hl
  | step _ g m gs _ hc hr =>
    obtain ⟨k, hs, ⟨_, hm⟩ | ⟨_, hm⟩⟩ := child_entries hn rfl hc
    · simp only [Own.entries, List.mem_map, Prod.mk.injEq] at hm
      obtain ⟨row, hrow, rfl, rfl⟩ := hm
      obtain ⟨f, rfl, hf, rfl⟩ := reach_treeEntry (.inl rfl) hr hl
      exact ⟨g, f, row, rfl, hrow, hs, hf, rfl⟩
    · simp only [Own.reprEntries, Own.representation, List.mem_map, Prod.mk.injEq] at hm
      obtain ⟨row, hrow, rfl, rfl⟩ := hm
      obtain ⟨f, rfl, hf, rfl⟩ := reach_treeEntry (.inr rfl) hr hl
      exact ⟨g, f, row, rfl, hrow, hs, hf, rfl⟩

theorem reach_linkList {n : Node} {ls : List Link} (hn : NodeOf n (.linkList ls)) {r : List Seg} {l : Node}
    (h : Reach n r l) (hl : l.kind = .link) :
    ∃ (g : Seg) (i : Nat) (k : Link), r = [g] ∧ StandsFor g i ∧ ls[i]? = some k ∧ l = .own (.commitLink k) := by
  cases h with
  | here => rcases hn with rfl | rfl <;> simp [Node.kind, Own.kind] at hl
  | step _ g m gs _ hc hr =>
    obtain ⟨i, hs, hm | hm⟩ := child_elems hn rfl hc <;>
    · simp only [Own.elems, Own.reprElems, Own.representation, List.getElem?_map, Option.map_eq_some_iff] at hm
      obtain ⟨k, hk, rfl⟩ := hm
      obtain ⟨rfl, rfl⟩ := reach_link rfl hr
      exact ⟨g, i, k, rfl, hs, hk, rfl⟩

theorem reach_stringList {n : Node} {ls : List Bytes} (hn : NodeOf n (.stringList ls)) {r : List Seg} {l : Node}
    (h : Reach n r l) : l.kind ≠ .link := by
  cases h with
  | here => rcases hn with rfl | rfl <;> simp [Node.kind, Own.kind]
  | step _ g m gs _ hc hr =>
    obtain ⟨i, hs, hm | hm⟩ := child_elems hn rfl hc <;>
    · simp only [Own.elems, Own.reprElems, Own.representation, List.getElem?_map, Option.map_eq_some_iff] at hm
      obtain ⟨k, hk, rfl⟩ := hm
      exact reach_string hr

theorem reach_tagList {n : Node} {ts : List Tag} (hn : NodeOf n (.tagList ts)) {r : List Seg} {l : Node}
    (h : Reach n r l) (hl : l.kind = .link) :
    ∃ (g f : Seg) (i : Nat) (t : Tag), r = [g, f] ∧ StandsFor g i ∧ Spells f b!"object" ∧ ts[i]? = some t ∧
      l = .own (.link t.object) := by
  cases h with
  | here => rcases hn with rfl | rfl <;> simp [Node.kind, Own.kind] at hl
  | step _ g m gs _ hc hr =>
    obtain ⟨i, hs, hm | hm⟩ := child_elems hn rfl hc <;>
    · simp only [Own.elems, Own.reprElems, Own.representation, List.getElem?_map, Option.map_eq_some_iff] at hm
      obtain ⟨t, ht, rfl⟩ := hm
      obtain ⟨f, rfl, hf, rfl⟩ := reach_tag (t := t) (by simp [NodeOf]) hr hl
      exact ⟨g, f, i, t, rfl, hs, hf, ht, rfl⟩

theorem reach_optNode {α : Type} {f : α → Own} {o : Option α} {r : List Seg} {l : Node}
    (hf : ∀ a, ∀ {r l}, Reach (.own (f a)) r l → l.kind ≠ .link) (h : Reach (optNode f o) r l) : l.kind ≠ .link := by
  cases o with
  | none => exact reach_absent h
  | some a => exact hf a h

theorem reach_optEntry {α : Type} {f : α → Own} {o : Option α} {k k' : Bytes} {m : Node} {r : List Seg} {l : Node}
    (hf : ∀ a, ∀ {r l}, Reach (f a).representation r l → l.kind ≠ .link) (hm : (k, m) ∈ optEntry k' f o)
    (h : Reach m r l) : l.kind ≠ .link := by
  cases o with
  | none => cases hm
  | some a =>
    simp only [optEntry, List.mem_cons, Prod.mk.injEq, List.not_mem_nil, or_false] at hm
    obtain ⟨_, rfl⟩ := hm
    exact hf a h

/-- The links in a commit. -/
inductive CommitLinks (c : Commit) : List Seg → Node → Prop
  | tree (g : Seg) (h : Spells g b!"tree") : CommitLinks c [g] (.own (.treeLink c.tree))
  | parent (g k : Seg) (i : Nat) (l : Link) (h : Spells g b!"parents") (hk : StandsFor k i)
      (hl : c.parents[i]? = some l) : CommitLinks c [g, k] (.own (.commitLink l))
  | merge (g k f : Seg) (i : Nat) (t : Tag) (h : Spells g b!"mergetag") (hk : StandsFor k i)
      (hf : Spells f b!"object") (hl : c.mergetag[i]? = some t) : CommitLinks c [g, k, f] (.own (.link t.object))

theorem reach_commit {n : Node} {c : Commit} (hn : NodeOf n (.commit c)) {r : List Seg} {l : Node}
    (h : Reach n r l) (hl : l.kind = .link) : CommitLinks c r l := by
  cases h with
  | here => rcases hn with rfl | rfl <;> simp [Node.kind, Own.kind] at hl
  | step _ g m gs _ hc hr =>
    obtain ⟨k, hs, ⟨_, hm⟩ | ⟨_, hm⟩⟩ := child_entries hn rfl hc
    · simp only [Own.entries, List.mem_cons, Prod.mk.injEq, List.not_mem_nil, or_false] at hm
      rcases hm with ⟨rfl, rfl⟩ | ⟨rfl, rfl⟩ | ⟨_, rfl⟩ | ⟨_, rfl⟩ | ⟨_, rfl⟩ | ⟨_, rfl⟩ | ⟨_, rfl⟩ | ⟨rfl, rfl⟩ | ⟨_, rfl⟩
      · obtain ⟨rfl, rfl⟩ := reach_link rfl hr
        exact .tree g hs
      · obtain ⟨k, i, l', rfl, hk, hi, rfl⟩ := reach_linkList (.inl rfl) hr hl
        exact .parent g k i l' hs hk hi
      · exact absurd hl (reach_string hr)
      · exact absurd hl (reach_optNode (fun a _ _ h => reach_person (.inl rfl) h) hr)
      · exact absurd hl (reach_optNode (fun a _ _ h => reach_person (.inl rfl) h) hr)
      · exact absurd hl (reach_optNode (fun a _ _ h => reach_string h) hr)
      · exact absurd hl (reach_optNode (fun a _ _ h => reach_gpgSig h) hr)
      · obtain ⟨k, f, i, t, rfl, hk, hf, ht, rfl⟩ := reach_tagList (.inl rfl) hr hl
        exact .merge g k f i t hs hk hf ht
      · exact absurd hl (reach_stringList (.inl rfl) hr)
    · simp only [Own.reprEntries] at hm
      rw [List.mem_append, List.mem_append, List.mem_append, List.mem_append, List.mem_append] at hm
      simp only [Own.representation, List.mem_cons, Prod.mk.injEq, List.not_mem_nil, or_false] at hm
      rcases hm with ((((hm | hm) | hm) | hm) | hm) | hm
      · rcases hm with ⟨rfl, rfl⟩ | ⟨rfl, rfl⟩ | ⟨_, rfl⟩
        · obtain ⟨rfl, rfl⟩ := reach_link rfl hr
          exact .tree g hs
        · obtain ⟨k, i, l', rfl, hk, hi, rfl⟩ := reach_linkList (.inr rfl) hr hl
          exact .parent g k i l' hs hk hi
        · exact absurd hl (reach_string hr)
      · exact absurd hl (reach_optEntry (f := Own.person) (fun a _ _ h => reach_person (.inr rfl) h) hm hr)
      · exact absurd hl (reach_optEntry (f := Own.person) (fun a _ _ h => reach_person (.inr rfl) h) hm hr)
      · exact absurd hl (reach_optEntry (f := Own.string) (fun a _ _ h => reach_string h) hm hr)
      · exact absurd hl (reach_optEntry (f := Own.gpgSig) (fun a _ _ h => reach_gpgSig h) hm hr)
      · rcases hm with ⟨rfl, rfl⟩ | ⟨_, rfl⟩
        · obtain ⟨k, f, i, t, rfl, hk, hf, ht, rfl⟩ := reach_tagList (.inr rfl) hr hl
          exact .merge g k f i t hs hk hf ht
        · exact absurd hl (reach_stringList (.inr rfl) hr)

/-! ## The other way round: links are reached -/

theorem reach_one {n m : Node} {g : Seg} (h : Child n g m) : Reach n [g] m := .step _ _ _ _ _ h (.here _)

theorem commitLinks_reach {n : Node} {c : Commit} (hn : NodeOf n (.commit c)) {r : List Seg} {l : Node}
    (h : CommitLinks c r l) : Reach n r l := by
  cases h with
  | tree g hg =>
    rcases hn with rfl | rfl
    · exact reach_one (.entry _ _ rfl (by simp [Own.entries]) hg)
    · exact reach_one (.entry _ _ rfl (by simp [Own.reprEntries, Own.representation]) hg)
  | parent g k i l hg hk hl =>
    rcases hn with rfl | rfl
    · refine .step _ _ (.own (.linkList c.parents)) _ _ (.entry _ _ rfl (by simp [Own.entries]) hg) (reach_one ?_)
      exact .elem _ i rfl (by simp [Own.elems, hl]) hk
    · refine .step _ _ (.repr (.linkList c.parents)) _ _ (.entry _ _ rfl (by simp [Own.reprEntries, Own.representation]) hg) (reach_one ?_)
      exact .elem _ i rfl (by simp [Own.reprElems, Own.representation, hl]) hk
  | merge g k f i t hg hk hf hl =>
    rcases hn with rfl | rfl
    · refine .step _ _ (.own (.tagList c.mergetag)) _ _ (.entry _ _ rfl (by simp [Own.entries]) hg) ?_
      refine .step _ _ (.own (.tag t)) _ _ (.elem _ i rfl (by simp [Own.elems, hl]) hk) (reach_one ?_)
      exact .entry _ _ rfl (by simp [Own.entries]) hf
    · refine .step _ _ (.repr (.tagList c.mergetag)) _ _ (.entry _ _ rfl (by simp [Own.reprEntries, Own.representation]) hg) ?_
      refine .step _ _ (.repr (.tag t)) _ _ (.elem _ i rfl (by simp [Own.reprElems, Own.representation, hl]) hk) (reach_one ?_)
      exact .entry _ _ rfl (by simp [Own.reprEntries, Own.representation]) hf

theorem tag_reach {n : Node} {t : Tag} (hn : NodeOf n (.tag t)) {g : Seg} (hg : Spells g b!"object") :
    Reach n [g] (.own (.link t.object)) := by
  rcases hn with rfl | rfl
  · exact reach_one (.entry _ _ rfl (by simp [Own.entries]) hg)
  · exact reach_one (.entry _ _ rfl (by simp [Own.reprEntries, Own.representation]) hg)

theorem tree_reach {n : Node} {t : Tree} (hn : NodeOf n (.tree t)) {g f : Seg} {row : Bytes × TreeEntry}
    (hr : row ∈ t.t) (hg : Spells g row.1) (hf : Spells f b!"hash") :
    Reach n [g, f] (.own (.link row.2.hash)) := by
  rcases hn with rfl | rfl
  · refine .step _ _ (.own (.treeEntry row.2)) _ _ (.entry _ _ rfl ?_ hg) (reach_one ?_)
    · simp only [Own.entries, List.mem_map]; exact ⟨row, hr, rfl⟩
    · exact .entry _ _ rfl (by simp [Own.entries]) hf
  · refine .step _ _ (.repr (.treeEntry row.2)) _ _ (.entry _ _ rfl ?_ hg) (reach_one ?_)
    · simp only [Own.reprEntries, List.mem_map]; exact ⟨row, hr, rfl⟩
    · exact .entry _ _ rfl (by simp [Own.reprEntries, Own.representation]) hf

end Verif
