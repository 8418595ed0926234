import Verif.Model.Lookup
import Verif.Spec.Num

/-!
# What a path leads to

Stated with the entries and elements that iteration reports, not with lookups.
-/

namespace Verif.Spec

open Verif

/-- The list index that a path segment stands for: its number, or the 64-bit
integer its text is a decimal notation of. -/
def StandsFor (g : Seg) (i : Int) : Prop :=
  (0 ≤ g.i ∧ i = g.i) ∨ (g.i < 0 ∧ Signed g.s i ∧ -(2 ^ 63 : Int) ≤ i ∧ i < 2 ^ 63)

/-- The map key that a path segment stands for: its text, or the decimal notation
of its number. -/
def Spells (g : Seg) (k : Bytes) : Prop :=
  (g.i < 0 ∧ k = g.s) ∨ (0 ≤ g.i ∧ Canonical k g.i.toNat)

/-- `m` is the child of `n` that the segment names. -/
inductive Child (n : Node) (g : Seg) (m : Node) : Prop
  | entry (es : List (Bytes × Node)) (k : Bytes) (h : n.mapIterator = some es)
      (hm : (k, m) ∈ es) (hk : Spells g k)
  | elem (xs : List Node) (i : Nat) (h : n.listIterator = some xs)
      (hm : xs[i]? = some m) (hi : StandsFor g i)

/-- `m` is at the end of a path from `n`. -/
inductive Reach : Node → List Seg → Node → Prop
  | here (n : Node) : Reach n [] n
  | step (n : Node) (g : Seg) (m : Node) (gs : List Seg) (k : Node)
      (h : Child n g m) (hr : Reach m gs k) : Reach n (g :: gs) k

/-- The map and the table of a tree hold the same entries. -/
def Agree : Own → Prop
  | .tree t => ∀ k e, mapGet t.m k = some e ↔ (k, e) ∈ t.t
  | _ => True

/-- A node of the package, typed or representation view. -/
def NodeOf (n : Node) (v : Own) : Prop := n = .own v ∨ n = .repr v

end Verif.Spec
