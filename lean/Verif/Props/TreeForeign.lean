import Verif.Proofs.TreeForeign
import Verif.Props.TreeHandles

/-!
# `AssignNode` on a tree builder

What `AssignNode` with any node, on handles that a client has kept, does to the tree it
has got from `Build`, and what a tree builder does to a tree it was given.
-/

namespace Verif.Props

open Verif Spec Calls Handles

/-! ## C85: the tree that was built -/

theorem treeSettled_typed : TreeSettled false := by
  intro grow hint cs good f s s' g more t hc hp hr hb hm
  obtain ⟨s1, g1, h1, -, h3⟩ := runTree_play (repr := false) grow (fun _ => 0) hint .idle hc hp
  rw [hr] at h1
  cases h1
  have hv : s.mark = .value := by
    unfold TreeSt.build at hb
    split at hb
    · assumption
    · cases hb
  cases h3 with
  | idle => cases hv
  | rest _ _ _ _ _ h => rw [h.mark] at hv; cases hv
  | key _ _ _ _ _ _ _ _ _ _ _ _ _ h => rw [h.mark] at hv; cases hv
  | keyed _ _ _ _ _ _ _ _ _ _ h => rw [h.mark] at hv; cases hv
  | mid _ _ _ _ _ _ _ h => rw [h.mark] at hv; cases hv
  | @done _ _ rows _ _ _ _ _ _ h7 h8 h9 =>
    have h0 : TreeStill s.mem.next s s :=
      ⟨h8, h7, h9.kw, rfl, rfl, keeps_refl (Nat.le_refl _), h9.off rfl _⟩
    have e0 := still_treeBuild h0 h9
    rw [hb] at e0
    rw [still_treeBuild (still_treeDeeds grow hint h0 hm) h9, ← e0]

/-- A tree that was built by always using the handle that is to be used stays as it is
in the typed view, and only there, also when `AssignNode` is given any node. -/
theorem tree_settled (repr : Bool) : TreeSettled repr ↔ repr = false := by
  cases repr with
  | false => exact ⟨fun _ => rfl, fun _ => treeSettled_typed⟩
  | true =>
    refine ⟨fun h => ?_, (fun h => by cases h)⟩
    refine (tree_lasts true).1 ?_
    intro grow hint cs good f s s' g more g' t hc hp hr hb hm
    exact h grow hint cs good f s s' g _ t hc hp hr hb (runTree_deeds hm)

/-- A tree entry as a map that is no node of the package. -/
def plainEntry : Nd := .map (.cons b!"mode" (.text b!"9") (.cons b!"hash" (.link .nil) .nil))

/-- Nodes given to the handles of a builder that has built: the entry assembler takes a
map, the tree assembler refuses a string. The tree stays. -/
example : ((runTree false id 0 .fresh (onCurrentTree (fun _ => 0) 0 .fresh twoEntries)).bind fun p =>
    (runTreeDeeds false id 0 p.1
      [([0], .call .beginMap), ([0], .node plainEntry), ([], .node (.text b!"9"))]).map shows) =
    some (some [(b!"a", b!"100644", some b!"100644"), (b!"b", b!"40000", some b!"40000")]) := by decide +kernel

/-! ## C86: a tree that was given -/

/-- A builder that was given a tree has that tree. Given a map then, it takes the rows
as well, and who holds the given tree finds them there by name, though they are not
among its rows. -/
theorem given_tree_shared (repr : Bool) (grow : Nat → Nat) (hint : Int) (t : Tree) (room : Nat) (rows : List Row) :
    ∃ s s', runTreeDeeds repr grow hint .fresh [([], .tree t room)] = some s ∧ s.build = .ok t ∧
      shownTree s.map s.tab s.mem = t ∧
      TreeSt.deedAt repr grow hint [] (.node (.map (rowEnts rows))) s = .ok s' ∧
      s'.build = .ok ⟨rows.reverse ++ t.m, t.t ++ rows⟩ ∧
      shownTree s'.map s.tab s'.mem = ⟨rows.reverse ++ t.m, t.t⟩ := by
  obtain ⟨s, h1, h2, h3, h4⟩ := given_grown t room
  obtain ⟨s', h5, h6⟩ := grown_rows repr grow h4 rows
  have h7 : shownTree s.map s.tab s.mem = t := by
    rw [(grown_shown h4 0).1, List.append_nil]; rfl
  have h8 := grown_shown h6 (t.t.length + room)
  refine ⟨s, _, ?_, ?_, h7, h5, ?_, ?_⟩
  · simp only [runTreeDeeds, TreeSt.deedAt, h1]
  · rw [← h7]; unfold TreeSt.build; rw [if_pos h2]; rfl
  · exact congrArg Res.ok h8.1
  · rw [h3]; exact h8.2

/-- So a client can change what a tree shows to all who hold it, if it is given to a
builder: whatever the tree, some map makes a lookup in it answer otherwise. -/
theorem given_tree_changes (repr : Bool) (grow : Nat → Nat) (hint : Int) (t : Tree) (room : Nat) (k : Bytes)
    (e : TreeEntry) :
    ∃ s s', runTreeDeeds repr grow hint .fresh [([], .tree t room)] = some s ∧ shownTree s.map s.tab s.mem = t ∧
      runTreeDeeds repr grow hint s [([], .node (.map (rowEnts [(k, e)])))] = some s' ∧
      treeLookup (shownTree s'.map s.tab s'.mem) k = .ok e := by
  obtain ⟨s, s', h1, -, h3, h4, -, h6⟩ := given_tree_shared repr grow hint t room [(k, e)]
  refine ⟨s, s', h1, h3, ?_, ?_⟩
  · simp only [runTreeDeeds, h4]
  · rw [h6]
    simp [treeLookup, mapGet]

/-- A tree with one row. -/
def oneRow : Tree := ⟨[(b!"c", ⟨b!"100644", .nil⟩)], [(b!"c", ⟨b!"100644", .nil⟩)]⟩

/-- The names and modes that a tree shows: those looked up, and those of the rows. -/
def shownModes (t : Tree) : List (Bytes × Bytes) × List (Bytes × Bytes) :=
  (t.m.map fun x => (x.1, x.2.mode), t.t.map fun x => (x.1, x.2.mode))

/-- The same with an entry that is a map like any other: the given tree, and what the
builder has. -/
def lent (room : Nat) : Option (Tree × TreeSt) :=
  (runTreeDeeds false id 0 .fresh [([], .tree oneRow room)]).bind fun s =>
    (runTreeDeeds false id 0 s [([], .node (.map (.cons b!"d" plainEntry .nil)))]).map fun s' =>
      (shownTree s'.map s.tab s'.mem, s')

example : (lent 0).map (fun x => shownModes x.1) =
    some ([(b!"d", b!"9"), (b!"c", b!"100644")], [(b!"c", b!"100644")]) := by decide +kernel

example : (lent 0).map (fun x => shows x.2) =
    some (some [(b!"c", b!"100644", some b!"100644"), (b!"d", b!"9", some b!"9")]) := by decide +kernel

/-- Where the array has room for the row, it is in the same array. -/
example : ([lent 0, lent 1].map fun o => o.map fun x => x.2.tab.arr == 1) = [some false, some true] := by
  decide +kernel

example : (lent 1).map (fun x => shownModes x.1) = (lent 0).map (fun x => shownModes x.1) := by decide +kernel

/-- Without a tree there is no map, and any entry makes a new builder panic. -/
example : (runTreeDeeds false id 0 .fresh [([], .node (.map (rowEnts oneRow.t)))]).map shows = none := by
  decide +kernel

example : (runTreeDeeds false id 0 .fresh [([], .node (.map .nil))]).map shows = some (some []) := by decide +kernel

end Verif.Props
