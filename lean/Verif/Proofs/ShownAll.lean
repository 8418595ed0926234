import Verif.Proofs.Shown
import Verif.Proofs.HandlesRun

/-!
# Every node shows something
-/

namespace Verif

open Spec Calls
open Verif.Handles (Nd Nds Ents)

/-! ## The values of the package's types are complete -/

theorem complete_person (p : PersonInfo) : Complete .person (personVal p) := by
  refine .struct rfl _ rfl ?_ ?_
  · intro i fd h hr
    match i, h with
    | 0, h => exact ⟨_, rfl⟩
    | 1, h => exact ⟨_, rfl⟩
    | 2, h => exact ⟨_, rfl⟩
    | 3, h => exact ⟨_, rfl⟩
    | i + 4, h => cases h
  · intro i fd v h hv
    match i, h, hv with
    | 0, h, hv => cases h; cases hv; exact .text rfl _
    | 1, h, hv => cases h; cases hv; exact .text rfl _
    | 2, h, hv => cases h; cases hv; exact .text rfl _
    | 3, h, hv => cases h; cases hv; exact .text rfl _
    | i + 4, h, hv => cases h

theorem complete_treeEntry (e : TreeEntry) : Complete .treeEntry (treeEntryVal e) := by
  refine .struct rfl _ rfl ?_ ?_
  · intro i fd h hr
    match i, h with
    | 0, h => exact ⟨_, rfl⟩
    | 1, h => exact ⟨_, rfl⟩
    | i + 2, h => cases h
  · intro i fd v h hv
    match i, h, hv with
    | 0, h, hv => cases h; cases hv; exact .text rfl _
    | 1, h, hv => cases h; cases hv; exact .link rfl _
    | i + 2, h, hv => cases h

theorem complete_tag (t : Tag) : Complete .tag (tagVal t) := by
  refine .struct rfl _ rfl ?_ ?_
  · intro i fd h hr
    match i, h with
    | 0, h => exact ⟨_, rfl⟩
    | 1, h => exact ⟨_, rfl⟩
    | 2, h => exact ⟨_, rfl⟩
    | 3, h => exact ⟨_, rfl⟩
    | 4, h => exact ⟨_, rfl⟩
    | i + 5, h => cases h
  · intro i fd v h hv
    match i, h, hv with
    | 0, h, hv => cases h; cases hv; exact .link rfl _
    | 1, h, hv => cases h; cases hv; exact .text rfl _
    | 2, h, hv => cases h; cases hv; exact .text rfl _
    | 3, h, hv => cases h; cases hv; exact complete_person _
    | 4, h, hv => cases h; cases hv; exact .text rfl _
    | i + 5, h, hv => cases h

theorem complete_list {α : Type} {t e : T} {val : α → Val} (h : t.shape = .list e) (hv : ∀ a, Complete e (val a))
    (l : List α) : Complete t (.list (l.map val)) :=
  .list h _ fun v hm => by
    obtain ⟨a, _, rfl⟩ := List.mem_map.1 hm
    exact hv a

theorem complete_commit (c : Commit) : Complete .commit (commitVal c) := by
  refine .struct rfl _ rfl ?_ ?_
  · intro i fd h hr
    match i, h with
    | 0, h => exact ⟨_, rfl⟩
    | 1, h => exact ⟨_, rfl⟩
    | 2, h => exact ⟨_, rfl⟩
    | 3, h => cases h; cases hr
    | 4, h => cases h; cases hr
    | 5, h => cases h; cases hr
    | 6, h => cases h; cases hr
    | 7, h => exact ⟨_, rfl⟩
    | 8, h => exact ⟨_, rfl⟩
    | i + 9, h => cases h
  · intro i fd v h hv
    obtain ⟨ctree, cpar, cmsg, cauth, ccomm, cenc, csig, cmt, coth⟩ := c
    match i, h, hv with
    | 0, h, hv => cases h; cases hv; exact .link rfl _
    | 1, h, hv => cases h; cases hv; exact complete_list rfl (fun l => .link rfl l) _
    | 2, h, hv => cases h; cases hv; exact .text rfl _
    | 3, h, hv => cases h; cases cauth <;> cases hv; exact complete_person _
    | 4, h, hv => cases h; cases ccomm <;> cases hv; exact complete_person _
    | 5, h, hv => cases h; cases cenc <;> cases hv; exact .text rfl _
    | 6, h, hv => cases h; cases csig <;> cases hv; exact .text rfl _
    | 7, h, hv => cases h; cases hv; exact complete_list rfl complete_tag _
    | 8, h, hv => cases h; cases hv; exact complete_list rfl (fun l => .text rfl l) _
    | i + 9, h, hv => cases h

theorem complete_own {v : Own} {t : T} (h : v.proto = protoOf t) : Complete t (valOf v) := by
  cases v <;> cases t <;> cases h
  · exact .text rfl _
  · exact .text rfl _
  · exact .link rfl _
  · exact .link rfl _
  · exact .link rfl _
  · exact complete_list rfl (fun l => .link rfl l) _
  · exact complete_list rfl (fun l => .text rfl l) _
  · exact complete_list rfl complete_tag _
  · exact complete_person _
  · exact complete_treeEntry _
  · exact complete_tag _
  · exact complete_commit _

mutual

theorem plain_whole : {n : Node} → {d : Nd} → Plain n d → Filled d
  | _, _, .null => trivial
  | _, _, .absent => trivial
  | _, _, .text _ _ => trivial
  | _, _, .link _ _ => trivial
  | _, _, .other _ => trivial
  | _, _, .list _ _ h => showsAll_whole h
  | _, _, .map _ _ h => showsEnts_whole h

theorem shows_whole : {n : Node} → {d : Nd} → Offers n d → Filled d
  | _, _, .own h1 h2 => ⟨complete_own h1, plain_whole h2⟩
  | _, _, .plain _ h => plain_whole h

theorem showsAll_whole : {ns : List Node} → {ds : Nds} → OffersAll ns ds → FilledAll ds
  | _, _, .nil => trivial
  | _, _, .cons h1 h2 => ⟨shows_whole h1, showsAll_whole h2⟩

theorem showsEnts_whole : {es : List (Bytes × Node)} → {ds : Ents} → OffersEnts es ds → FilledEnts ds
  | _, _, .nil => trivial
  | _, _, .cons h1 h2 => ⟨shows_whole h1, showsEnts_whole h2⟩

end

/-! ## Every node shows something -/

theorem all_total : (ns : List Node) → (∀ n ∈ ns, ∃ d, Offers n d) → ∃ ds, OffersAll ns ds
  | [], _ => ⟨_, .nil⟩
  | n :: ns, h => by
    obtain ⟨d, h1⟩ := h n (by simp)
    obtain ⟨ds, h2⟩ := all_total ns fun m hm => h m (by simp [hm])
    exact ⟨_, .cons h1 h2⟩

theorem ents_total : (es : List (Bytes × Node)) → (∀ x ∈ es, ∃ d, Offers x.2 d) → ∃ ds, OffersEnts es ds
  | [], _ => ⟨_, .nil⟩
  | (k, n) :: es, h => by
    obtain ⟨d, h1⟩ := h (k, n) (by simp)
    obtain ⟨ds, h2⟩ := ents_total es fun m hm => h m (by simp [hm])
    exact ⟨_, .cons h1 h2⟩

theorem own_total {v : Own} (h : ∃ d, Plain (.own v) d) : ∃ d, Offers (.own v) d := by
  obtain ⟨d, h⟩ := h
  by_cases ht : ∃ t, v.proto = protoOf t
  · obtain ⟨t, ht⟩ := ht
    exact ⟨_, .own ht h⟩
  · refine ⟨d, .plain ?_ h⟩
    intro w t hw hp
    cases hw
    exact ht ⟨t, hp⟩

theorem repr_total {v : Own} (h : ∃ d, Plain (.repr v) d) : ∃ d, Offers (.repr v) d := by
  obtain ⟨d, h⟩ := h
  exact ⟨d, .plain (fun w t hw => by cases hw) h⟩

/-- Both views of a value show something. -/
def BothViews (v : Own) : Prop := (∃ d, Offers (.own v) d) ∧ ∃ d, Offers (.repr v) d

theorem both_repr {v : Own} (h : BothViews v) : ∃ d, Offers v.representation d := by
  cases v <;> first | exact h.1 | exact h.2

theorem both_string (b : Bytes) : BothViews (.string b) :=
  ⟨own_total ⟨_, .text rfl rfl⟩, repr_total ⟨_, .text rfl rfl⟩⟩
theorem both_gpgSig (b : Bytes) : BothViews (.gpgSig b) :=
  ⟨own_total ⟨_, .text rfl rfl⟩, repr_total ⟨_, .text rfl rfl⟩⟩
theorem both_link (l : Link) : BothViews (.link l) :=
  ⟨own_total ⟨_, .link rfl rfl⟩, repr_total ⟨_, .link rfl rfl⟩⟩
theorem both_treeLink (l : Link) : BothViews (.treeLink l) :=
  ⟨own_total ⟨_, .link rfl rfl⟩, repr_total ⟨_, .link rfl rfl⟩⟩
theorem both_commitLink (l : Link) : BothViews (.commitLink l) :=
  ⟨own_total ⟨_, .link rfl rfl⟩, repr_total ⟨_, .link rfl rfl⟩⟩
theorem both_blob (b : Bytes) : BothViews (.blob b) :=
  ⟨own_total ⟨_, .other (by simp [Node.kind, Own.kind])⟩, repr_total ⟨_, .other (by simp [Node.kind, Own.kind])⟩⟩

theorem both_list {v : Own} (hk : v.kind = .list) (h1 : ∀ n ∈ v.elems, ∃ d, Offers n d)
    (h2 : ∀ n ∈ v.reprElems, ∃ d, Offers n d) : BothViews v := by
  obtain ⟨d1, h1⟩ := all_total _ h1
  obtain ⟨d2, h2⟩ := all_total _ h2
  exact ⟨own_total ⟨_, .list hk (by simp [Node.listIterator, hk]) h1⟩,
    repr_total ⟨_, .list hk (by simp [Node.listIterator, hk]) h2⟩⟩

theorem both_map {v : Own} (hk : v.kind = .map) (h1 : ∀ x ∈ v.entries, ∃ d, Offers x.2 d)
    (h2 : ∀ x ∈ v.reprEntries, ∃ d, Offers x.2 d) : BothViews v := by
  obtain ⟨d1, h1⟩ := ents_total _ h1
  obtain ⟨d2, h2⟩ := ents_total _ h2
  exact ⟨own_total ⟨_, .map hk (by simp [Node.mapIterator, hk]) h1⟩,
    repr_total ⟨_, .map hk (by simp [Node.mapIterator, hk]) h2⟩⟩

theorem both_linkList (ls : List Link) : BothViews (.linkList ls) := by
  refine both_list rfl ?_ ?_ <;> intro n hn <;> obtain ⟨l, _, rfl⟩ := List.mem_map.1 hn
  · exact (both_commitLink l).1
  · exact both_repr (both_commitLink l)

theorem both_stringList (ls : List Bytes) : BothViews (.stringList ls) := by
  refine both_list rfl ?_ ?_ <;> intro n hn <;> obtain ⟨l, _, rfl⟩ := List.mem_map.1 hn
  · exact (both_string l).1
  · exact both_repr (both_string l)

theorem both_person (p : PersonInfo) : BothViews (.person p) := by
  refine both_map rfl ?_ ?_ <;> intro x hx <;>
    simp only [Own.entries, Own.reprEntries, List.mem_cons, List.not_mem_nil, or_false] at hx <;>
    rcases hx with rfl | rfl | rfl | rfl <;> first | exact (both_string _).1 | exact both_repr (both_string _)

theorem both_treeEntry (e : TreeEntry) : BothViews (.treeEntry e) := by
  refine both_map rfl ?_ ?_ <;> intro x hx <;>
    simp only [Own.entries, Own.reprEntries, List.mem_cons, List.not_mem_nil, or_false] at hx <;>
    rcases hx with rfl | rfl <;>
    first | exact (both_string _).1 | exact both_repr (both_string _) | exact (both_link _).1 | exact both_repr (both_link _)

theorem both_tag (t : Tag) : BothViews (.tag t) := by
  refine both_map rfl ?_ ?_ <;> intro x hx <;>
    simp only [Own.entries, Own.reprEntries, List.mem_cons, List.not_mem_nil, or_false] at hx <;>
    rcases hx with rfl | rfl | rfl | rfl | rfl <;>
    first
      | exact (both_string _).1 | exact both_repr (both_string _) | exact (both_link _).1 | exact both_repr (both_link _)
      | exact (both_person _).1 | exact both_repr (both_person _)

theorem both_tagList (ts : List Tag) : BothViews (.tagList ts) := by
  refine both_list rfl ?_ ?_ <;> intro n hn <;> obtain ⟨l, _, rfl⟩ := List.mem_map.1 hn
  · exact (both_tag l).1
  · exact both_repr (both_tag l)

theorem both_tree (t : Tree) : BothViews (.tree t) := by
  refine both_map rfl ?_ ?_ <;> intro x hx <;> obtain ⟨r, _, rfl⟩ := List.mem_map.1 hx
  · exact (both_treeEntry r.2).1
  · exact both_repr (both_treeEntry r.2)

theorem opt_total {α : Type} {f : α → Own} (h : ∀ a, BothViews (f a)) (o : Option α) : ∃ d, Offers (optNode f o) d := by
  cases o with
  | none => exact ⟨_, .plain (fun w t hw => by cases hw) .absent⟩
  | some a => exact (h a).1

theorem optEntry_total {α : Type} {f : α → Own} (h : ∀ a, BothViews (f a)) {k : Bytes} {o : Option α} {x : Bytes × Node}
    (hx : x ∈ optEntry k f o) : ∃ d, Offers x.2 d := by
  cases o with
  | none => cases hx
  | some a =>
    simp only [optEntry, List.mem_cons, List.not_mem_nil, or_false] at hx
    subst hx
    exact both_repr (h a)

theorem both_commit (c : Commit) : BothViews (.commit c) := by
  refine both_map rfl ?_ ?_ <;> intro x hx
  · simp only [Own.entries, List.mem_cons, List.not_mem_nil, or_false] at hx
    rcases hx with rfl | rfl | rfl | rfl | rfl | rfl | rfl | rfl | rfl
    · exact (both_treeLink _).1
    · exact (both_linkList _).1
    · exact (both_string _).1
    · exact opt_total both_person _
    · exact opt_total both_person _
    · exact opt_total both_string _
    · exact opt_total both_gpgSig _
    · exact (both_tagList _).1
    · exact (both_stringList _).1
  · simp only [Own.reprEntries, List.mem_append, List.mem_cons, List.not_mem_nil, or_false] at hx
    rcases hx with ((((h | h) | h) | h) | h) | h
    · rcases h with rfl | rfl | rfl
      · exact both_repr (both_treeLink _)
      · exact both_repr (both_linkList _)
      · exact both_repr (both_string _)
    · exact optEntry_total both_person h
    · exact optEntry_total both_person h
    · exact optEntry_total both_string h
    · exact optEntry_total both_gpgSig h
    · rcases h with rfl | rfl
      · exact both_repr (both_tagList _)
      · exact both_repr (both_stringList _)

theorem both_total : ∀ v, BothViews v
  | .blob b => both_blob b
  | .string b => both_string b
  | .gpgSig b => both_gpgSig b
  | .link l => both_link l
  | .treeLink l => both_treeLink l
  | .commitLink l => both_commitLink l
  | .linkList ls => both_linkList ls
  | .stringList ls => both_stringList ls
  | .tagList ts => both_tagList ts
  | .person p => both_person p
  | .treeEntry e => both_treeEntry e
  | .tree t => both_tree t
  | .tag t => both_tag t
  | .commit c => both_commit c

theorem plain_shows {n : Node} {d : Nd} (hn : ∀ v, n ≠ .own v) (h : Plain n d) : ∃ d, Offers n d :=
  ⟨d, .plain (fun v _ hv => (hn v hv).elim) h⟩

theorem shows_total : (n : Node) → ∃ d, Offers n d
  | .null => plain_shows (by simp) .null
  | .absent => plain_shows (by simp) .absent
  | .bool _ => plain_shows (by simp) (.other (by simp [Node.kind]))
  | .int _ => plain_shows (by simp) (.other (by simp [Node.kind]))
  | .float _ => plain_shows (by simp) (.other (by simp [Node.kind]))
  | .str _ => plain_shows (by simp) (.text rfl rfl)
  | .bytes _ => plain_shows (by simp) (.other (by simp [Node.kind]))
  | .link _ => plain_shows (by simp) (.link rfl rfl)
  | .list ns => by
    obtain ⟨ds, h⟩ := all_total ns fun n _ => shows_total n
    exact plain_shows (by simp) (.list rfl rfl h)
  | .map es => by
    obtain ⟨ds, h⟩ := ents_total es fun x _ => shows_total x.2
    exact plain_shows (by simp) (.map rfl rfl h)
  | .own v => (both_total v).1
  | .repr v => (both_total v).2
termination_by n => sizeOf n
decreasing_by
  · have := List.sizeOf_lt_of_mem ‹n ∈ ns›
    simp only [Node.list.sizeOf_spec]; omega
  · have := List.sizeOf_lt_of_mem ‹x ∈ es›
    obtain ⟨k, m⟩ := x
    simp only [Prod.mk.sizeOf_spec] at this
    simp only [Node.map.sizeOf_spec]; omega

/-! ## The builders -/

theorem proto_shown (pol : TreeAsm → Nat) (t : T) {n : Node} {d : Nd} (h : Offers n d) :
    taken false t d = ((protoOf t).assignNode pol n >>= fun v => .ok (valOf v)) := by
  have bb : ∀ {α : Type} {q : Res α} {f : α → Own},
      ((q >>= fun a => .ok (f a)) >>= fun v => .ok (valOf v)) = (q >>= fun a => (.ok (valOf (f a)) : Res Val)) := by
    intro α q f; cases q <;> rfl
  cases t
  · rw [gives_string false n d h]; exact (bb (q := assignString n) (f := .string)).symm
  · rw [gives_gpgSig false n d h]; exact (bb (q := assignGpgSig n) (f := .gpgSig)).symm
  · rw [gives_lnk false n d h]; exact (bb (q := assignLink n) (f := .link)).symm
  · rw [gives_treeLink false n d h]; exact (bb (q := assignTreeLink n) (f := .treeLink)).symm
  · rw [gives_commitLink false n d h]; exact (bb (q := assignCommitLink n) (f := .commitLink)).symm
  · rw [gives_linkList false n d h]; exact (bb (q := assignLinkList [] n) (f := .linkList)).symm
  · rw [gives_stringList false n d h]; exact (bb (q := assignStringList [] n) (f := .stringList)).symm
  · rw [gives_tagList false n d h]; exact (bb (q := assignTagList [] n) (f := .tagList)).symm
  · rw [gives_person false n d h]; exact (bb (q := buildPerson n) (f := .person)).symm
  · rw [gives_treeEntry n d h]; exact (bb (q := buildTreeEntry n) (f := .treeEntry)).symm
  · rw [gives_tag n d h]; exact (bb (q := buildTag n) (f := .tag)).symm
  · rw [gives_commit n d h]; exact (bb (q := buildCommit n) (f := .commit)).symm

end Verif
