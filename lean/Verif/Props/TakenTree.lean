import Verif.Spec.TakenTree
import Verif.Props.TreeForeign
import Verif.Props.Taken

/-!
# What a node makes of a new tree builder
-/

namespace Verif.Props

open Spec Calls Handles

/-- The name is stored, and then there is no map. -/
theorem rows_panic (repr : Bool) (grow : Nat → Nat) (k : Bytes) (n : Nd) (r : Ents) :
    TreeSt.fresh.assignRows repr grow (.cons k n r) = .panic := by
  simp only [TreeSt.assignRows, TreeSt.assembleKey, TreeSt.ready, TreeSt.fresh, TreeRes.andThen, TreeSt.append,
    Nat.lt_irrefl, if_false, TreeSt.keyAssign, TreeSt.assembleValue, reduceCtorEq, if_true]
  split <;> simp_all

/-- A new tree builder refuses what is no map and panics for any entry. -/
theorem assign_any_tree (repr : Bool) (grow : Nat → Nat) : (n : Nd) → giveTree repr grow (.node n) = treeTaken n
  | .null => rfl
  | .text _ => rfl
  | .link _ => rfl
  | .other => rfl
  | .list _ => rfl
  | .map .nil => rfl
  | .map (.cons k n r) => by
    simp only [giveTree, TreeSt.deedAt, TreeSt.assignNode, rows_panic, treeTaken]
  | .own _ _ n => assign_any_tree repr grow n

/-- Given a tree it builds that tree. -/
theorem assign_tree (repr : Bool) (grow : Nat → Nat) (t : Tree) (room : Nat) :
    giveTree repr grow (.tree t room) = .ok t := by
  obtain ⟨s, s', h1, h2, -⟩ := given_tree_shared repr grow 0 t room []
  unfold giveTree
  simp only [runTreeDeeds] at h1
  split at h1
  · rename_i s0 h
    cases h1
    rw [h]
    exact h2
  · rename_i e s0 h
    exfalso
    simp only [TreeSt.deedAt, TreeSt.assignTree, TreeSt.fresh, if_true] at h
    cases h
  · cases h1
  · cases h1

theorem value_no_map {s : TreeAsm} (h : s.map = none) (hs : s.state = .midKey) : s.assembleValue = .panic := by
  unfold TreeAsm.assembleValue
  rw [hs]
  simp only
  split
  · split
    · rfl
    · simp only [TreeAsm.put, h]
  · rfl

theorem entries_panic (pol : TreeAsm → Nat) (k : Bytes) (n : Node) (r : List (Bytes × Node)) :
    TreeAsm.fresh.assignEntries pol ((k, n) :: r) = .panic := by
  obtain ⟨s, p, h2, h3, h4, h5, h6⟩ : ∃ s p, TreeAsm.fresh.assembleKey pol = .ok s ∧ s.map = none ∧ s.state = .midKey ∧
      s.cm = .absent ∧ s.ka = some p := ⟨_, _, rfl, rfl, rfl, rfl, rfl⟩
  have : s.keyAssign k = .ok { s.store p (fun r => (k, r.2)) with cm := .value } := by
    unfold TreeAsm.keyAssign
    rw [h5, h6]
  simp only [TreeAsm.assignEntries, h2, this]
  rw [value_no_map (s := { s.store p (fun r => (k, r.2)) with cm := .value }) h3 h4]

/-- The model of trees with values says the same. -/
theorem tree_memory_matches (repr : Bool) (grow : Nat → Nat) (pol : TreeAsm → Nat) (n : Node) (d : Nd)
    (h : Offers n d) (hn : ∀ t, n ≠ .own (.tree t)) : giveTree repr grow (.node d) = assignTree pol n := by
  rw [assign_any_tree]
  have e : assignTree pol n = (match TreeAsm.fresh.assignNode pol n with
      | .ok s => .ok s.built
      | .err e _ => .err e
      | .panic => .panic) := by
    unfold assignTree
    split
    · exact absurd rfl (hn _)
    · rfl
  rw [e]
  have hplain : ∀ d, Plain n d → treeTaken d = (match TreeAsm.fresh.assignNode pol n with
      | .ok s => .ok s.built
      | .err e _ => .err e
      | .panic => .panic) := by
    intro d hd
    have no : n.kind ≠ .map → n.mapIterator = none := by
      intro hk
      cases n with
      | map es => exact absurd rfl hk
      | own v => exact if_neg hk
      | repr v => exact if_neg hk
      | _ => rfl
    have refuse : n.kind ≠ .null → n.kind ≠ .map → TreeAsm.fresh.assignNode pol n = .err .wrongKind .fresh := by
      intro h1 h2
      unfold TreeAsm.assignNode
      rw [kind_not_null h1, no h2]
      rfl
    cases hd with
    | null => rfl
    | absent => rfl
    | text hk _ => rw [refuse (by rw [hk]; simp) (by rw [hk]; simp)]; rfl
    | link hk _ => rw [refuse (by rw [hk]; simp) (by rw [hk]; simp)]; rfl
    | other hk =>
      rw [refuse (by rcases hk with h | h | h | h <;> rw [h] <;> simp)
        (by rcases hk with h | h | h | h <;> rw [h] <;> simp)]; rfl
    | list hk _ _ => rw [refuse (by rw [hk]; simp) (by rw [hk]; simp)]; rfl
    | map hk hi hx =>
      unfold TreeAsm.assignNode
      rw [kind_not_null (by rw [hk]; simp), hi]
      cases hx with
      | nil => rfl
      | cons h1 h2 =>
        simp only [treeTaken, Bool.false_eq_true, if_false, entries_panic]
  cases h with
  | own hp hd => simp only [treeTaken]; exact hplain _ hd
  | plain _ hd => exact hplain _ hd

example : giveTree true id (.node entryNd) = .panic := assign_any_tree true id entryNd
example : giveTree false id (.node (.map .nil)) = .ok ⟨[], []⟩ := assign_any_tree false id (.map .nil)
example : giveTree false id (.node (.text b!"a")) = .err .wrongKind := assign_any_tree false id (.text b!"a")
example : giveTree false id (.tree oneRow 0) = .ok oneRow := assign_tree false id oneRow 0

end Verif.Props
