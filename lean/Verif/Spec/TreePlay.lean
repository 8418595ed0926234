import Verif.Spec.Feed
import Verif.Spec.Calls
import Verif.Model.TreeCalls

/-!
# Which sequences of calls build which tree
-/

namespace Verif.Spec

open Verif Calls

/-- The two ways to name the next entry of a tree that has the rows `rows` already.
`AssembleEntry` takes new names only. -/
inductive TreeNames (rows : List Row) (k : Bytes) : List (Nat × Call) → Prop where
  | entry : k ∉ rows.map Prod.fst → TreeNames rows k [(0, .assembleEntry k)]
  | keyValue : TreeNames rows k [(0, .assembleKey), (0, .keyAssign k), (0, .assembleValue)]

/-- `cs` spells out these rows in order. -/
inductive TreeEntries : List Row → List (Nat × Call) → Prop where
  | nil : TreeEntries [] []
  | snoc {rows : List Row} {cs nm c : List (Nat × Call)} {k : Bytes} {e : TreeEntry} :
      TreeEntries rows cs → TreeNames rows k nm → Makes .treeEntry (treeEntryVal e) c →
      TreeEntries (rows ++ [(k, e)]) (cs ++ nm ++ deeper c)

/-- `cs` spells out a tree with these rows. -/
def MakesTree (rows : List Row) (cs : List (Nat × Call)) : Prop :=
  ∃ es, TreeEntries rows es ∧ cs = (0, .beginMap) :: es ++ [(0, .finish)]

/-- What a client sees of its calls on a tree builder that it makes one after the
other, whether they return an error or not. `none`: one of them panicked, or the
client had no handle to make it on. Otherwise the builder, and which calls returned
no error. -/
def playTree (pol : TreeAsm → Nat) (hint : Int) :
    TreeFrame → List (Nat × Call) → Option (TreeFrame × List (Nat × Call))
  | a, [] => some (a, [])
  | a, (d, c) :: r =>
    match a.callAt pol hint d c with
    | .ok a' => (playTree pol hint a' r).map fun p => (p.1, (d, c) :: p.2)
    | .err _ a' => playTree pol hint a' r
    | .panic => none
    | .noHandle => none

end Verif.Spec
