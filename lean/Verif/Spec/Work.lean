/-!
# How arrays grow

What the runtime has to do when an array is too small, and what Go's runtime does.
-/

namespace Verif.Spec

/-- A new array has room for what is needed and is larger by at least a quarter. -/
def Grows (grow : Nat → Nat → Nat) : Prop :=
  ∀ cap need, cap < need → need ≤ grow cap need ∧ 5 * cap ≤ 4 * grow cap need

/-- The loop of `nextslicecap` in Go's runtime/slice.go, at most `n` times. -/
def quarterSteps (need : Nat) : Nat → Nat → Nat
  | 0, c => c
  | n + 1, c => if need ≤ c then c else quarterSteps need n (c + (c + 3 * 256) / 4)

/-- `nextslicecap` in Go's runtime/slice.go, followed by rounding up to a size class of
the allocator. -/
def goGrow (roundUp : Nat → Nat) (cap need : Nat) : Nat :=
  roundUp
    (if 2 * cap < need then need
     else if cap < 256 then 2 * cap
     else quarterSteps need need (cap + (cap + 3 * 256) / 4))

end Verif.Spec
