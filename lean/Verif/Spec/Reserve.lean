import Verif.Basic

/-!
# What the runtime makes of a requested size
-/

namespace Verif.Spec

/-- Arrays are at least as large as requested, and from 512 bytes on at most twice as
large. (Go's size classes waste far less.) -/
structure Sizes (round : Nat → Nat) : Prop where
  enough : ∀ c, c ≤ round c
  thrifty : ∀ c, 512 ≤ c → round c ≤ 2 * c

end Verif.Spec
