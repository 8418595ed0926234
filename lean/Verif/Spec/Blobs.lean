import Verif.Model.Blobs

/-!
# Who shares bytes with a blob
-/

namespace Verif.Spec.Blobs

open Verif Verif.Blobs

/-- Element `i` of `s` is an element of `t`. -/
def Reaches (s : Slice) (i : Nat) (t : Slice) : Prop :=
  s.arr = t.arr ∧ t.off ≤ s.off + i ∧ s.off + i < t.off + t.len

instance (s : Slice) (i : Nat) (t : Slice) : Decidable (Reaches s i t) := by unfold Reaches; infer_instance

/-- The act asks a blob on the array `A` for its bytes. -/
def Asks (A : Nat) (a : Act) (w : World) : Prop :=
  ∃ n x, a = .asBytes n ∧ w.nodes[n]? = some x ∧ (w.cells.getD x nil).arr = A

/-- So does no act of the run. -/
def NeverAsks (A : Nat) : List Act → World → Prop
  | [], _ => True
  | a :: as, w => ¬ Asks A a w ∧ NeverAsks A as (step a w).1

end Verif.Spec.Blobs
