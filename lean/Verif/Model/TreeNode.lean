import Verif.Model.Types

/-!
# Reading a Tree node

`/repo/ipldsch_satisfaction.go:6708-6874`. The representation view
(`_Tree__Repr`, lines 7136-7208) reads the same map and table and wraps the
entries with `Representation()`.
-/

namespace Verif

/-- `Tree.LookupByString`, /repo/ipldsch_satisfaction.go:6791-6801. -/
def treeLookup (t : Tree) (k : Bytes) : Res TreeEntry :=
  match mapGet t.m k with
  | some e => .ok e
  | none => .err .notExists

/-- `Tree.Length`, /repo/ipldsch_satisfaction.go:6846-6848. -/
def treeLength (t : Tree) : Nat := t.t.length

/-- `_Tree__MapItr`, /repo/ipldsch_satisfaction.go:6824-6827. -/
structure TreeItr where
  n : Tree
  idx : Nat

/-- `Tree.MapIterator`, /repo/ipldsch_satisfaction.go:6820-6822. -/
def treeIterator (t : Tree) : TreeItr := ⟨t, 0⟩

/-- `_Tree__MapItr.Done`, /repo/ipldsch_satisfaction.go:6839-6841. -/
def TreeItr.done (i : TreeItr) : Bool := i.idx ≥ i.n.t.length

/-- `_Tree__MapItr.Next`, /repo/ipldsch_satisfaction.go:6829-6838. -/
def TreeItr.next (i : TreeItr) : Res ((Bytes × TreeEntry) × TreeItr) :=
  match i.n.t[i.idx]? with
  | none => .err .iterOver
  | some r => .ok (r, { i with idx := i.idx + 1 })

/-- The client's loop `for !itr.Done() { itr.Next() }`, as in
/repo/tree.go:82-86: the entries reported, with a bound on the number of steps. -/
def TreeItr.run : Nat → TreeItr → Res (List (Bytes × TreeEntry))
  | 0, i => if i.done then .ok [] else .err .fuel
  | n + 1, i =>
    if i.done then .ok []
    else do
      let (r, i) ← i.next
      let rs ← TreeItr.run n i
      .ok (r :: rs)

end Verif
