import Verif.Spec.Feed
import Verif.Spec.Build
import Verif.Model.TreeCalls

/-!
# Specification: a tree given call by call
-/

namespace Verif.Spec

open Verif Calls

/-- An entry of a map with the way it is named: `byEntry` if with `AssembleEntry`,
otherwise with `AssembleKey` and `AssembleValue`. -/
structure TreeGiven where
  byEntry : Bool
  key : Bytes
  node : Node

/-- The calls that give the entries to a tree assembler that has begun. -/
inductive FeedsTree : List TreeGiven → List (Nat × Call) → Prop where
  | nil : FeedsTree [] []
  | entry {k : Bytes} {n : Node} {gs : List TreeGiven} {c cs : List (Nat × Call)} :
      Feeds n c → FeedsTree gs cs →
      FeedsTree (⟨true, k, n⟩ :: gs) ((0, .assembleEntry k) :: (deeper c ++ cs))
  | keyed {k : Bytes} {n : Node} {gs : List TreeGiven} {c cs : List (Nat × Call)} :
      Feeds n c → FeedsTree gs cs →
      FeedsTree (⟨false, k, n⟩ :: gs)
        ((0, .assembleKey) :: (0, .keyAssign k) :: (0, .assembleValue) :: (deeper c ++ cs))

/-- The calls one after the other, up to the first error. -/
def driveTree (pol : TreeAsm → Nat) (hint : Int) : TreeFrame → List (Nat × Call) → Res TreeFrame
  | a, [] => .ok a
  | a, (d, c) :: r =>
    match a.callAt pol hint d c with
    | .ok a' => driveTree pol hint a' r
    | .err e _ => .err e
    | .panic => .panic
    | .noHandle => .panic

/-- A fresh tree builder, the calls up to the first error, and `Build`. -/
def buildTreeBy (pol : TreeAsm → Nat) (hint : Int) (cs : List (Nat × Call)) : Res Tree := do
  let a ← driveTree pol hint .fresh cs
  a.build

/-- The rows have the keys given, in order, and values that the nodes given denote. -/
def RowsOf (gs : List TreeGiven) (rows : List Row) : Prop :=
  rows.map Prod.fst = gs.map TreeGiven.key ∧
  Each TreeEntryNode (gs.map TreeGiven.node) (rows.map Prod.snd)

/-- Every key that is given to `AssembleEntry` has not been given before. -/
def EntriesNew (gs : List TreeGiven) : Prop :=
  ∀ before g after, gs = before ++ g :: after → g.byEntry = true → g.key ∉ before.map TreeGiven.key

end Verif.Spec
