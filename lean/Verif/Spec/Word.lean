import Verif.Spec.Objects

/-!
# Sizes that an `int` cannot hold
-/

namespace Verif.Spec

open Verif

/-- The text announces, for a blob, a tree or a commit, a size that is a number but
no `int`. -/
def WideSize (half : Nat) (b : Bytes) : Prop :=
  ∃ w d r z, w ∈ [b!"blob", b!"tree", b!"commit"] ∧ NUL ∉ d ∧ Signed d z ∧ ¬ (-(half : Int) ≤ z ∧ z < half) ∧
    b = w ++ SP :: (d ++ NUL :: r)

end Verif.Spec
