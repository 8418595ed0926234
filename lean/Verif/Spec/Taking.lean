import Verif.Spec.Source

/-!
# Readers that give what is asked for
-/

namespace Verif.Spec

open Verif

/-- Every read returns as much as it is asked for, as far as there is something: a
`bytes.Reader`, or a file. -/
def Greedy (ρ : Type) [Source ρ] (inv : ρ → Prop) (pending : ρ → Bytes) : Prop :=
  ∀ k s, 0 < k → inv s → (Source.read k s).1.1 = (pending s).take k

end Verif.Spec
