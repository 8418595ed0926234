import Verif.Model.Alias

/-!
# Slices of a reader's buffer
-/

namespace Verif.Spec

open LineReader

/-- A line read as a value is what the slice shows right after the read. Nothing is
said about what it shows after the next read. -/
def LawfulLines (σ : Type) [LineReader σ] : Prop :=
  ∀ s : σ, Reader.readLine s = (readSliceLine s >>= fun p => .ok (view p.2 p.1, p.2))

/-- In the states satisfying `inv`, which reads do not leave, the underlying reader
never returns more than it was asked for. -/
structure Fits (ρ : Type) [Source ρ] (inv : ρ → Prop) : Prop where
  stays : ∀ k r, 0 < k → inv r → inv (Source.read k r).2
  size : ∀ k r, 0 < k → inv r → (Source.read k r).1.1.length ≤ k

end Verif.Spec
