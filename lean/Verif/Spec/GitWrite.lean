import Verif.Spec.Signed
import Verif.Spec.Multi

/-!
# Commits and tags as git makes them

What `git commit`, `git merge`, `git commit --amend` and `git tag -a` write, from
what they are given: ident.c (`strbuf_addstr_without_crud`, `fmt_ident`), commit.c
(`commit_tree_extended`, `add_extra_header`, `add_header_signature`) and
builtin/tag.c (`create_tag`) of git. Git appends to the text in this order and does
not sort the extra headers: a commit that is amended has those of the old commit in
the old order, and the signature goes behind all of them.
-/

namespace Verif.Spec

open Verif

/-- What git strips from both ends of a name or an email: control characters,
spaces, the angle brackets, and a few punctuation marks `more` that depend on the
version. -/
def crud (more : Bytes) (c : UInt8) : Bool := c ≤ 32 || c == LT || c == GT || more.contains c

/-- The text without crud at its ends, and without LF and angle brackets. -/
def withoutCrud (more x : Bytes) : Bytes :=
  (((x.dropWhile (crud more)).reverse.dropWhile (crud more)).reverse).filter
    fun c => c != LF && c != LT && c != GT

/-- A person: any name and any email, the time in seconds, and the offset from UTC
with a sign. -/
structure MadeIdent where
  name : Bytes
  email : Bytes
  date : Bytes
  zone : Bytes

/-- The date is a number, the offset a sign and four digits. -/
structure MadeIdent.Ok (i : MadeIdent) : Prop where
  date : ∃ n, Canonical i.date n
  zone : ∃ sign ds, i.zone = sign :: ds ∧ (sign = 43 ∨ sign = 45) ∧ ds.length = 4 ∧ ∀ c ∈ ds, Digit c

/-- The person in a header. -/
def MadeIdent.text (more : Bytes) (i : MadeIdent) : Bytes :=
  withoutCrud more i.name ++ b!" <" ++ withoutCrud more i.email ++ b!"> " ++ i.date ++ b!" " ++ i.zone

/-- The person as the package shows it. -/
def MadeIdent.person (more : Bytes) (i : MadeIdent) : PersonInfo :=
  ⟨withoutCrud more i.name, withoutCrud more i.email, i.date, i.zone⟩

/-- What `git tag -a` and `git tag -s` are given; a signature is part of the
message. -/
structure MadeTag where
  object : Bytes
  typ : Bytes
  name : Bytes
  tagger : MadeIdent
  msg : Bytes

/-- The name of a tag has no control characters and no spaces. -/
structure MadeTag.Ok (t : MadeTag) : Prop where
  object : t.object.length = 20
  typ : t.typ ∈ [b!"blob", b!"tree", b!"commit", b!"tag"]
  name : ∀ c ∈ t.name, 32 < c
  tagger : t.tagger.Ok

/-- The header lines of the tag. -/
def MadeTag.lines (more : Bytes) (t : MadeTag) : List Bytes :=
  [b!"object " ++ hex t.object, b!"type " ++ t.typ, b!"tag " ++ t.name, b!"tagger " ++ t.tagger.text more]

/-- The tag: the headers, an empty line and the message. -/
def MadeTag.body (more : Bytes) (t : MadeTag) : Bytes := unlines (t.lines more) ++ LF :: t.msg

/-- The lines of an extra header: the keyword, and the lines of the value with a
space before each. -/
def extraLines (key value : Bytes) : List Bytes :=
  match textLines value with
  | [] => [key]
  | l :: ls => (key ++ SP :: l) :: ls.map (SP :: ·)

/-- An extra header: the tag that was merged, or any other. -/
inductive Extra where
  | mergetag (t : MadeTag)
  | other (key value : Bytes)

/-- The keywords of extra headers are words, and not those that have a meaning. -/
def Extra.Ok : Extra → Prop
  | .mergetag t => t.Ok
  | .other k _ => k ≠ [] ∧ SP ∉ k ∧ LF ∉ k ∧
      k ∉ [b!"tree", b!"parent", b!"author", b!"committer", b!"encoding", b!"mergetag", b!"gpgsig"]

/-- The lines of an extra header. The value of a merge tag is the whole tag. -/
def Extra.lines (more : Bytes) : Extra → List Bytes
  | .mergetag t => extraLines b!"mergetag" (t.body more)
  | .other k v => extraLines k v

/-- What a commit is made of. -/
structure MadeCommit where
  tree : Bytes
  parents : List Bytes
  author : MadeIdent
  committer : MadeIdent
  encoding : Option Bytes
  extra : List Extra
  sig : Option (SigFormat × List Bytes)
  msg : Bytes

/-- The parts are of the right form. -/
structure MadeCommit.Ok (g : MadeCommit) : Prop where
  tree : g.tree.length = 20
  parents : ∀ p ∈ g.parents, p.length = 20
  author : g.author.Ok
  committer : g.committer.Ok
  encoding : ∀ e, g.encoding = some e → LF ∉ e
  extra : ∀ x ∈ g.extra, x.Ok
  sig : ∀ f ls, g.sig = some (f, ls) → Armour f ls ∧ ∀ l ∈ ls, LF ∉ l

/-- The lines of the signature. -/
def sigHeaderLines : Option (SigFormat × List Bytes) → List Bytes
  | none => []
  | some (f, ls) => (b!"gpgsig " ++ f.first) :: (ls ++ [f.last]).map (SP :: ·)

/-- The header lines of the commit. -/
def MadeCommit.lines (more : Bytes) (g : MadeCommit) : List Bytes :=
  [b!"tree " ++ hex g.tree]
  ++ g.parents.map (fun p => b!"parent " ++ hex p)
  ++ [b!"author " ++ g.author.text more, b!"committer " ++ g.committer.text more]
  ++ (g.encoding.map fun e => b!"encoding " ++ e).toList
  ++ g.extra.flatMap (Extra.lines more)
  ++ sigHeaderLines g.sig

/-- The commit: the headers, an empty line and the message. -/
def MadeCommit.body (more : Bytes) (g : MadeCommit) : Bytes := unlines (g.lines more) ++ LF :: g.msg

/-- The lines are shorter than the buffer of the reader, and none ends in CR. -/
def LinesFit (N : Nat) (ls : List Bytes) : Prop := ∀ l ∈ ls, l.length < N ∧ l.getLast? ≠ some CR

/-- The signature is one that the package reads. -/
def ReadableSig : Option (SigFormat × List Bytes) → Prop
  | none => True
  | some (f, ls) => f = .pgp ∧ PlainStart ls

/-- The merge tags are before the other extra headers, and a signed commit has no
other extra headers. -/
def Reproduced (g : MadeCommit) : Prop :=
  ∃ (ms : List MadeTag) (os : List (Bytes × Bytes)),
    g.extra = ms.map .mergetag ++ os.map (fun o => .other o.1 o.2) ∧ (g.sig ≠ none → os = [])

/-- What the package shows of the merge tag: every line of its message keeps the
space. -/
def MadeTag.merged (more : Bytes) (t : MadeTag) : Tag :=
  ⟨gitLink t.object, t.typ, t.name, t.tagger.person more, unlines ((textLines t.msg).map (SP :: ·))⟩

/-- The merge tag that an extra header is shown as. -/
def Extra.merged (more : Bytes) : Extra → Option Tag
  | .mergetag t => some (t.merged more)
  | .other _ _ => none

/-- The unknown lines that an extra header is shown as. -/
def Extra.unknown : Extra → List Bytes
  | .mergetag _ => []
  | .other k v => extraLines k v

/-- What the package shows of the tag. -/
def MadeTag.node (more : Bytes) (t : MadeTag) : Tag :=
  ⟨gitLink t.object, t.typ, t.name, t.tagger.person more, t.msg⟩

/-- What the package shows of the commit. -/
def MadeCommit.node (more : Bytes) (g : MadeCommit) : Commit where
  tree := gitLink g.tree
  parents := g.parents.map gitLink
  message := g.msg
  author := some (g.author.person more)
  committer := some (g.committer.person more)
  encoding := g.encoding
  signature := g.sig.map fun s => unlines (s.2.map (SP :: ·))
  mergetag := g.extra.filterMap (Extra.merged more)
  other := g.extra.flatMap Extra.unknown

end Verif.Spec
