import Verif.Spec.Objects

/-!
# Values that stand in a byte stream
-/

namespace Verif.Spec

/-- `m` consists of lines, each followed by LF, that stand in `B`. -/
def LinesOf (B m : Bytes) : Prop := ∃ ls, m = unlines ls ∧ ∀ l ∈ ls, l <:+: B

/-- The link is missing, or it is the link to the git object whose hash stands
in `B` in hexadecimal right after the word `w`. -/
def LinkFrom (B w : Bytes) (l : Link) : Prop :=
  l = .nil ∨ ∃ h sha, Ref h sha ∧ l = gitLink sha ∧ w ++ h <:+: B

/-- The fields of the person stand in `B` behind the word `w`. The email may
have lost `<` characters, nothing else. -/
def PersonFrom (B w : Bytes) (p : PersonInfo) : Prop :=
  ∃ z, w ++ z <:+: B ∧ p.name <:+: z ∧ p.date <:+: z ∧ p.timezone <:+: z ∧
    ∃ e, e <:+: z ∧ p.email.Sublist e ∧ p.email.filter (· ≠ LT) = e.filter (· ≠ LT)

/-- The fields of the tag are missing or stand in `B`; the words in front of
them start with `pre`. -/
structure TagFrom (B pre : Bytes) (t : Tag) : Prop where
  typ : t.typ = [] ∨ pre ++ b!"type " ++ t.typ <:+: B
  tag : t.tag = [] ∨ pre ++ b!"tag " ++ t.tag <:+: B
  tagger : t.tagger = ⟨[], [], [], []⟩ ∨ PersonFrom B (pre ++ b!"tagger ") t.tagger

/-- A tag object whose values stand in `B`. -/
structure PlainTagFrom (B : Bytes) (t : Tag) : Prop extends TagFrom B b!"" t where
  object : LinkFrom B b!"object " t.object
  message : t.message = [] ∨ t.message <:+ B

/-- A merge tag that stands in `B`. -/
structure MergeTagFrom (B : Bytes) (t : Tag) : Prop extends TagFrom B b!" " t where
  object : IsGitLink t.object ∧ LinkFrom B b!"mergetag object " t.object
  message : LinesOf B t.message

/-- A commit whose values stand in `B`. -/
structure CommitFrom (B : Bytes) (c : Commit) : Prop where
  tree : LinkFrom B b!"tree " c.tree
  parents : ∀ p ∈ c.parents, IsGitLink p ∧ LinkFrom B b!"parent " p
  author : ∀ p, c.author = some p → PersonFrom B b!"author " p
  committer : ∀ p, c.committer = some p → PersonFrom B b!"committer " p
  encoding : ∀ e, c.encoding = some e → b!"encoding " ++ e <:+: B
  mergetag : ∀ t ∈ c.mergetag, MergeTagFrom B t
  signature : ∀ g, c.signature = some g → LinesOf B g ∧ b!"gpgsig " <:+: B ∧ sigEnd <:+: B
  other : ∀ l ∈ c.other, l <:+: B ∧ l ≠ [] ∧ ∀ w ∈ knownHeaders, ¬ w <+: l
  message : c.message = [] ∨ c.message <:+ B

end Verif.Spec
