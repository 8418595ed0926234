import Verif.Spec.Objects

/-!
# What fits the format and the buffer

Commits and tags that can be written and read back, for a reader with a buffer of
`N` bytes. A header line has to be shorter than the buffer, with two exceptions:
the lines of a merge tag and, in a tag without message, the line of the tagger may
fill it.
-/

namespace Verif.Spec

/-- The tag fits. -/
structure TagFits (N : Nat) (t : Tag) : Prop where
  object : IsGitLink t.object
  typ : HeaderLine N (b!"type " ++ t.typ)
  tag : HeaderLine N (b!"tag " ++ t.tag)
  tagger : PersonOk t.tagger
  taggerLine : HeaderLine (if t.message = [] then N + 1 else N) (b!"tagger " ++ personText t.tagger)

/-- The tag fits into a commit as a merge tag. -/
structure MergeFits (N : Nat) (t : Tag) : Prop where
  object : IsGitLink t.object
  typ : HeaderLine (N + 1) (b!" type " ++ t.typ)
  tag : HeaderLine (N + 1) (b!" tag " ++ t.tag)
  tagger : PersonOk t.tagger
  taggerLine : HeaderLine (N + 1) (b!" tagger " ++ personText t.tagger)
  message : ∃ ls, t.message = unlines ls ∧ ∀ l ∈ ls, l.head? = some SP ∧ HeaderLine N l

/-- The commit fits. -/
structure CommitFits (N : Nat) (c : Commit) (author committer : PersonInfo) : Prop where
  tree : IsGitLink c.tree
  parents : ∀ p ∈ c.parents, IsGitLink p
  authorIs : c.author = some author
  authorOk : PersonOk author
  authorLine : HeaderLine N (b!"author " ++ personText author)
  committerIs : c.committer = some committer
  committerOk : PersonOk committer
  committerLine : HeaderLine N (b!"committer " ++ personText committer)
  encoding : ∀ e, c.encoding = some e → HeaderLine N (b!"encoding " ++ e)
  mergetag : ∀ t ∈ c.mergetag, MergeFits N t
  signature : ∀ g, c.signature = some g → SigOk N g
  other : ∀ l ∈ c.other, OtherOk N l
  /-- a header that directly follows a merge tag is not a continuation line -/
  afterTag : c.mergetag ≠ [] → c.signature = none → ∀ l, c.other.head? = some l → l.head? ≠ some SP

/-- The object fits. Blobs and trees have no lines. -/
def ObjFits (N : Nat) : Obj → Prop
  | .blob _ => True
  | .tree _ => True
  | .tag t => TagFits N t
  | .commit c => ∃ author committer, CommitFits N c author committer

end Verif.Spec
