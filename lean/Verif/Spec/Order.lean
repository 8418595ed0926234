import Verif.Spec.Objects

/-!
# The header order that survives re-encoding
-/

namespace Verif.Spec

/-- One tree, any number of parents, one author, one committer, at most one
encoding, any number of merge tags, at most one signature and then the unknown
headers, in this order; references in lower-case digits. -/
def EncoderOrder (is : List Item) : Prop :=
  ∃ (tree : Bytes) (parents : List Bytes) (author committer : PersonInfo) (encoding : Option Bytes)
    (merges : List Tag) (sig : Option Bytes) (others : List Bytes),
    is = [.tree (hex tree) tree]
      ++ parents.map (fun sha => .parent (hex sha) sha)
      ++ [.author author, .committer committer]
      ++ (encoding.map Item.encoding).toList
      ++ merges.map (fun t => .mergetag (hex (digest t.object)) t)
      ++ (sig.map Item.sig).toList
      ++ others.map Item.other

/-- One object, one type, one tag and one tagger line, in this order; the
reference in lower-case digits. -/
def TagEncoderOrder (is : List TagItem) : Prop :=
  ∃ (sha typ tag : Bytes) (tagger : PersonInfo),
    is = [.object (hex sha) sha, .typ typ, .tag tag, .tagger tagger]

end Verif.Spec
