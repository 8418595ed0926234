import Verif.Spec.GitWrite
import Verif.Spec.Accept

/-!
# A merged tag and the tag object

The tag that is merged is an object of its own, and its text is also a header of the
merge commit, with a space before every line. What a client does with the node of the
one to have that of the other.
-/

namespace Verif.Spec

open Verif

/-- The tag with the first byte of every line of its message taken off. -/
def detach (t : Tag) : Tag := { t with message := unlines ((textLines t.message).map (·.drop 1)) }

/-- The tag with a space before every line of its message. -/
def attach (t : Tag) : Tag := { t with message := unlines ((textLines t.message).map (SP :: ·)) }

/-- The tag that an extra header holds. -/
def Extra.tag? : Extra → Option MadeTag
  | .mergetag t => some t
  | .other _ _ => none

/-- The tags that were merged. -/
def MadeCommit.tags (g : MadeCommit) : List MadeTag := g.extra.filterMap Extra.tag?

/-- The message with its last line ended. -/
def ended (m : Bytes) : Bytes := if m.getLast? = some LF then m else m ++ [LF]

end Verif.Spec
