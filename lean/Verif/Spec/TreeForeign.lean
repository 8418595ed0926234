import Verif.Model.TreeForeign
import Verif.Spec.TreeHandles

/-!
# `AssignNode` with any node on the handles of a tree builder
-/

namespace Verif.Spec

open Verif Calls Handles

/-- As `runDeeds`, for tree builders. -/
def runTreeDeeds (repr : Bool) (grow : Nat → Nat) (hint : Int) :
    TreeSt → List (List Nat × TreeDeed) → Option TreeSt
  | s, [] => some s
  | s, (h, d) :: r =>
    match s.deedAt repr grow hint h d with
    | .ok s' => runTreeDeeds repr grow hint s' r
    | .err _ s' => runTreeDeeds repr grow hint s' r
    | .panic => none
    | .noHandle => none

/-- As `Settled`, for tree builders; entries may be given whole. -/
def TreeSettled (repr : Bool) : Prop :=
  ∀ (grow : Nat → Nat) (hint : Int) (cs good : List (Nat × Call)) (f : TreeFrame) (s s' : TreeSt)
    (g : List (List Nat × Call)) (more : List (List Nat × TreeDeed)) (t : Tree),
    (∀ d u x, (d, Call.assignSelf u x) ∈ cs → Complete u x) →
    playTree (fun _ => 0) hint .fresh cs = some (f, good) →
    runTree repr grow hint .fresh (onCurrentTree (fun _ => 0) hint .fresh cs) = some (s, g) → s.build = .ok t →
    runTreeDeeds repr grow hint s more = some s' → s'.build = .ok t

/-- What a tree with the given map and table shows: what is looked up and the rows. -/
def shownTree (m : Option (List (Bytes × Handles.Ptr))) (t : Slice) (μ : Mem) : Tree :=
  ⟨(m.getD []).map fun x => (x.1, TreeSt.loadEntry (μ.read x.2)),
    ((TreeSt.items μ t.arr).take t.len).map TreeSt.loadRow⟩

/-- A map of the rows, the entries as nodes of the package. -/
def rowEnts : List Row → Ents
  | [] => .nil
  | r :: l => .cons r.1 (.own .treeEntry (treeEntryVal r.2)
      (.map (.cons b!"mode" (.text r.2.mode) (.cons b!"hash" (.link r.2.hash) .nil)))) (rowEnts l)

end Verif.Spec
