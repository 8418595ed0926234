import Verif.Proofs.Gen
import Verif.Props.Tree
import Verif.Model.Builders

/-!
# C64: the nodes of a type are the data of the schema
-/

namespace Verif.Props

open Verif Spec

/-- What a client reads from a node, typed (`repr = false`) or representation, is
determined, and it is data of the node's type in the schema; for a tree if the
names of its rows are distinct. -/
theorem node_conforms (repr : Bool) (v : Own)
    (hd : ∀ t, v = .tree t → (t.t.map Prod.fst).Nodup) :
    ∃ d, Reads (if repr then v.representation else .own v) d ∧ Conforms repr (tyOf v) d ∧
      ∀ d', Reads (if repr then v.representation else .own v) d' → d' = d :=
  ⟨ownData repr v, reads_own repr v, conf_own repr v hd,
    fun _ h => reads_unique h (reads_own repr v)⟩

/-- A tree with a repeated name is read as data that is not of the type. -/
theorem repeated_name_not_conforming (repr : Bool) (t : Tree) (h : ¬ (t.t.map Prod.fst).Nodup)
    (d : Data) (hr : Reads (if repr then (Own.tree t).representation else .own (.tree t)) d) :
    ¬ Conforms repr .tree d := by
  intro hc
  obtain rfl := reads_unique hr (reads_own repr (.tree t))
  obtain ⟨es, he, hn, _⟩ := inv_map rfl hc
  apply h
  have : es = t.t.map fun r => (r.1, entryData r.2) := by injection he.symm
  rw [this] at hn
  simpa [List.map_map, Function.comp_def] using hn

/-- Every data of a type is read from some value of that type, and only from
one. -/
theorem conforming_is_node (repr : Bool) (t : Ty) (d : Data) (h : Conforms repr t d) :
    ∃ v, tyOf v = t ∧ Reads (if repr then v.representation else .own v) d ∧
      ∀ w, tyOf w = t → Reads (if repr then w.representation else .own w) d → SameValue w v := by
  obtain ⟨v, hv, rfl, _⟩ := inv_own h
  refine ⟨v, hv, reads_own repr v, ?_⟩
  intro w hw hr
  exact ownData_inj repr w v (hw.trans hv.symm) (reads_unique (reads_own repr w) hr)

/-- Both views show the same value: values that read the same in one read the
same in the other. -/
theorem views_agree (v w : Own) (ht : tyOf v = tyOf w) (r r' : Bool) (d d' : Data)
    (h : Reads (if r then v.representation else .own v) d)
    (h' : Reads (if r then w.representation else .own w) d)
    (hv : Reads (if r' then v.representation else .own v) d') :
    Reads (if r' then w.representation else .own w) d' := by
  have he : ownData r v = ownData r w :=
    (reads_unique (reads_own r v) h).trans (reads_unique h' (reads_own r w))
  have hs := ownData_inj r v w ht he
  have hd' := reads_unique hv (reads_own r' v)
  have : ownData r' v = ownData r' w := by
    cases v <;> cases w <;> first | cases ht | skip
    case tree.tree a b =>
      show Data.map _ = Data.map _
      rw [show a.t = b.t from hs]
    all_goals rw [show _ = _ from hs]
  rw [hd', this]
  exact reads_own r' w

/-- Everything that is decoded is of its type. -/
theorem decoded_conforms (repr : Bool) (s : Stream) (o : Obj) (h : parseObject s = .ok o) :
    ∃ d, Reads (if repr then o.own.representation else .own o.own) d ∧
      Conforms repr (tyOf o.own) d := by
  have hd : ∀ t, o.own = .tree t → (t.t.map Prod.fst).Nodup := by
    intro t ht
    cases o with
    | tree u =>
      obtain rfl : u = t := by injection ht
      obtain ⟨rows, h1, _, h3, _⟩ := tree_lookup_iteration s u h
      have h1 := h1 (treeLength u) (Nat.le_refl _)
      have h4 := treeItr_run u (treeLength u) 0 (by simp [treeLength])
      have hrows : rows = u.t := by
        rw [show treeIterator u = ⟨u, 0⟩ from rfl, h4] at h1
        simpa using h1.symm
      rw [← hrows]
      exact h3
    | blob b => cases ht
    | commit c => cases ht
    | tag t => cases ht
  obtain ⟨d, h1, h2, _⟩ := node_conforms repr o.own hd
  exact ⟨d, h1, h2⟩

/-- A link knows the type it points to as the schema says. -/
theorem link_targets (v : Own) (g : Option Ty) (h : schema (tyOf v) = .link g) :
    v.linkTarget?.map tyOf = g := by
  cases v <;> cases h <;> rfl

/-- A commit without author, in both views: the typed view lists the field as
absent and the representation leaves it out. -/
example : ∃ d e, Reads (.own (.commit .zero)) (.map d) ∧ Conforms false .commit (.map d) ∧
    Reads (Own.representation (.commit .zero)) (.map e) ∧ Conforms true .commit (.map e) ∧
    d.length = 9 ∧ e.length = 5 :=
  ⟨_, _, reads_own false (.commit .zero), conf_own false (.commit .zero) nofun,
    reads_own true (.commit .zero), conf_own true (.commit .zero) nofun, rfl, rfl⟩

end Verif.Props
