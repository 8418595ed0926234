import Verif.Model.EncWork
import Verif.Spec.Work

/-!
# What the bound on the work of encoding depends on
-/

namespace Verif.Spec

open Verif

/-- The arrays of `fmt` and of `bytes.Buffer` leave room and grow by a quarter at least. -/
def GrowsBoth (g : Rules) : Prop := Grows g.fmt ∧ Grows g.buf

/-- `bytes.Buffer`: at least 64 bytes at first, then twice the array or what is needed;
`roundUp` is the allocator's. -/
def bufferGrow (roundUp : Nat → Nat) (cap need : Nat) : Nat :=
  if cap = 0 ∧ need ≤ 64 then 64 else roundUp (max need (2 * cap))

/-- The multihash of the link is not longer than that of a git link. -/
def GitLong : Link → Prop
  | .cid c => c.hash.length ≤ 22
  | _ => True

/-- The links of a node. -/
def linksOf : Obj → List Link
  | .blob _ => []
  | .tree t => t.t.map (·.2.hash)
  | .commit c => c.tree :: c.parents ++ c.mergetag.map (·.object)
  | .tag t => [t.object]

end Verif.Spec
