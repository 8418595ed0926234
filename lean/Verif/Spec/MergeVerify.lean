import Verif.Spec.Merge
import Verif.Spec.TagSign

/-!
# The merged tags that git verifies

`git log --show-signature` and `git verify-commit` take the value of every header
`mergetag` (`for_each_mergetag` and `read_commit_extra_header_lines` in commit.c of
git): the rest of its line and the lines that continue it, without the space.
-/

namespace Verif.Spec

open Verif

/-- The header is a merged tag. -/
def mergeField (f : List Bytes) : Bool := f.head?.any fun l => decide (b!"mergetag " <+: l)

/-- The value of a header of the keyword `mergetag`. -/
def mergeValue : List Bytes → Bytes
  | [] => []
  | l :: cs => unlines (l.drop 9 :: cs.map (·.drop 1))

/-- The headers of a commit, each with the lines that continue it. -/
def headerFields (body : Bytes) : List (List Bytes) := gitFields (headLines body)

/-- The texts of the merged tags. -/
def gitMerges (body : Bytes) : List Bytes := ((headerFields body).filter mergeField).map mergeValue

end Verif.Spec
