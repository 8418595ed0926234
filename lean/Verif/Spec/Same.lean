import Verif.Spec.Verify
import Verif.Spec.Accept

/-!
# When two objects are the same but for what the package does not show
-/

namespace Verif.Spec

/-- What may stand in the size field of an object of the kind. -/
def SizeFor (kind d : Bytes) : Prop :=
  (kind ∈ [b!"tree", b!"commit"] ∧ ∃ z, SizeField d z) ∨ (kind = b!"tag" ∧ NUL ∉ d)

/-- The commit with the merged tags before the other extra headers. -/
def MadeCommit.mergesBefore (g : MadeCommit) : MadeCommit := { g with extra := mergesFirst g.extra }

end Verif.Spec
