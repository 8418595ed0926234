import Verif.Basic

/-!
# A commit that is all merge tags
-/

namespace Verif.Spec

/-- The first line of a merge tag. -/
def tagLine0 : Bytes := b!"mergetag object 0000000000000000000000000000000000000000"

/-- `d` merge tags, each of the line that names its object and the empty line
before its (empty) message, then the end of the headers. -/
def tagsText : Nat → Bytes
  | 0 => [LF]
  | d + 1 => tagLine0 ++ LF :: SP :: LF :: tagsText d

/-- The file of a commit with `d` merge tags and nothing else. -/
def tower (d : Nat) : Bytes := b!"commit 0\x00" ++ tagsText d

theorem tower_length (d : Nat) : (tower d).length = 59 * d + 10 := by
  have h : ∀ d, (tagsText d).length = 59 * d + 1 := by
    intro d
    induction d with
    | zero => rfl
    | succ d ih =>
      simp only [tagsText, List.length_append, List.length_cons, ih]
      have : tagLine0.length = 56 := by decide
      omega
  rw [tower, List.length_append, h]
  show 9 + _ = _
  omega

end Verif.Spec
