import Verif.Spec.Objects

/-!
# Header text that is read line by line as it was written
-/

namespace Verif.Spec

/-- The header part of a commit object. -/
def commitHead (c : Commit) (author committer : PersonInfo) : Bytes :=
  unlines [b!"tree " ++ hex (digest c.tree)]
  ++ unlines (c.parents.map fun p => b!"parent " ++ hex (digest p))
  ++ unlines [b!"author " ++ personText author, b!"committer " ++ personText committer]
  ++ encodingText c.encoding
  ++ c.mergetag.flatMap mergeTagText
  ++ sigText c.signature
  ++ unlines c.other

/-- The header part of a tag object. -/
def tagHead (t : Tag) : Bytes :=
  unlines [
    b!"object " ++ hex (digest t.object),
    b!"type " ++ t.typ,
    b!"tag " ++ t.tag,
    b!"tagger " ++ personText t.tagger]

/-- No line ends in CR, and every line is shorter than the buffer. -/
structure PlainLines (N : Nat) (H : Bytes) : Prop where
  noCRLF : ¬ [CR, LF] <:+: H
  short : ∀ l, l <:+: H → LF ∉ l → l.length < N

/-- What a parsed person can still lack: an email in which no word begins with
`<`, and a date if there is a timezone. -/
def Expressible (p : PersonInfo) : Prop :=
  ¬ b!" <" <:+: p.email ∧ (p.timezone ≠ [] → p.date ≠ [])

end Verif.Spec
