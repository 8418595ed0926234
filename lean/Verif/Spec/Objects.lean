import Verif.Spec.Num
import Verif.Spec.Person
import Verif.Spec.Hex

/-!
# Git objects as text

The git object formats, written down without reference to the decoder or the
encoder. `N` is the size of the reader's buffer; `bufio.NewReader` makes it at
least 4096.
-/

namespace Verif.Spec

/-- `word SP decimal-length NUL body`: the frame around every git object. -/
def Framed (word body out : Bytes) : Prop :=
  ∃ d, Canonical d body.length ∧ out = word ++ SP :: (d ++ NUL :: body)

/-- A link to the git object with hash `sha`: CIDv1, codec git-raw (0x78),
multihash code sha1 (0x11), length 20 (0x14), digest. -/
def gitLink (sha : Bytes) : Link := .cid { version := 1, codec := 0x78, hash := 0x11 :: 0x14 :: sha }

/-- The link names a git object. -/
def IsGitLink (l : Link) : Prop := ∃ sha : Bytes, sha.length = 20 ∧ l = gitLink sha

/-- Lower-case hexadecimal text of a byte string. -/
def hex (b : Bytes) : Bytes :=
  b.flatMap fun c => [b!"0123456789abcdef".getD (c.toNat / 16) 0, b!"0123456789abcdef".getD (c.toNat % 16) 0]

/-- A header line that is read as it stands: no LF inside, not ending in CR
(which would be taken for part of the line end), shorter than the buffer. -/
structure HeaderLine (N : Nat) (l : Bytes) : Prop where
  noLF : LF ∉ l
  noCR : l.getLast? ≠ some CR
  short : l.length < N

/-- Lines, each followed by LF. -/
def unlines (ls : List Bytes) : Bytes := ls.flatMap fun l => l ++ [LF]

/-! ## Trees -/

/-- One entry of a git tree. -/
structure Entry where
  mode : Bytes
  name : Bytes
  sha : Bytes
  deriving DecidableEq, Repr

/-- Text of a tree entry. -/
def Entry.text (e : Entry) : Bytes := e.mode ++ SP :: (e.name ++ NUL :: e.sha)

/-- The separators do not occur in the fields, the hash has 20 bytes. -/
structure EntryOk (e : Entry) : Prop where
  mode : SP ∉ e.mode
  name : NUL ∉ e.name
  sha : e.sha.length = 20

/-- Entries of a valid tree. -/
structure EntriesOk (es : List Entry) : Prop where
  each : ∀ e ∈ es, EntryOk e
  distinct : (es.map (·.name)).Nodup

/-- The node's view of an entry: its name, mode and link. -/
def Entry.row (e : Entry) : Bytes × TreeEntry := (e.name, { mode := e.mode, hash := gitLink e.sha })

/-- Body of a tree object. -/
def treeBody (es : List Entry) : Bytes := es.flatMap Entry.text

/-! ## Persons -/

/-- `name <email> date tz`; date and timezone are left out when empty. -/
def personText (p : PersonInfo) : Bytes :=
  p.name ++ b!" <" ++ p.email ++ b!">"
    ++ (if p.date = [] then [] else SP :: p.date)
    ++ (if p.timezone = [] then [] else SP :: p.timezone)

/-! ## Tags -/

/-- Hash behind a git link, `[]` for other links. -/
def digest : Link → Bytes
  | .cid c => c.hash.drop 2
  | _ => []

/-- Body of a tag object with a tagger and a message. -/
def tagBody (t : Tag) : Bytes :=
  unlines [
    b!"object " ++ hex (digest t.object),
    b!"type " ++ t.typ,
    b!"tag " ++ t.tag,
    b!"tagger " ++ personText t.tagger,
    b!""] ++ t.message

/-- Optional message, after a blank line. -/
def messageText : Option Bytes → Bytes
  | none => []
  | some m => LF :: m

/-- Body of a tag object as git writes it: the tagger header is missing in old
tags, and there may be no blank line and message. -/
def gitTagText (sha typ tag : Bytes) (tagger : Option PersonInfo) (msg : Option Bytes) : Bytes :=
  unlines ([b!"object " ++ hex sha, b!"type " ++ typ, b!"tag " ++ tag]
    ++ (tagger.map fun p => b!"tagger " ++ personText p).toList)
  ++ messageText msg

/-- The fields of the tag fit the format. -/
structure TagOk (N : Nat) (t : Tag) : Prop where
  object : IsGitLink t.object
  typ : HeaderLine N (b!"type " ++ t.typ)
  tag : HeaderLine N (b!"tag " ++ t.tag)
  tagger : PersonOk t.tagger
  taggerLine : HeaderLine N (b!"tagger " ++ personText t.tagger)

/-! ## Commits -/

/-- The merge tag as a block of header lines; `h` is the text of its object
reference. -/
def mergeTagBlock (h : Bytes) (t : Tag) : Bytes :=
  unlines [
    b!"mergetag object " ++ h,
    b!" type " ++ t.typ,
    b!" tag " ++ t.tag,
    b!" tagger " ++ personText t.tagger,
    b!" "] ++ t.message

/-- The merge tag with the reference in lower-case digits. -/
def mergeTagText (t : Tag) : Bytes := mergeTagBlock (hex (digest t.object)) t

/-- The fields of the merge tag fit the format; its message is a sequence of
lines each starting with a space. -/
structure MergeTagOk (N : Nat) (t : Tag) : Prop where
  object : IsGitLink t.object
  typ : HeaderLine N (b!" type " ++ t.typ)
  tag : HeaderLine N (b!" tag " ++ t.tag)
  tagger : PersonOk t.tagger
  taggerLine : HeaderLine N (b!" tagger " ++ personText t.tagger)
  message : ∃ ls, t.message = unlines ls ∧ ∀ l ∈ ls, l.head? = some SP ∧ HeaderLine N l

/-- The line that ends a PGP signature. -/
def sigEnd : Bytes := b!" -----END PGP SIGNATURE-----"

/-- The line that begins a PGP signature. -/
def sigBegin : Bytes := b!"gpgsig -----BEGIN PGP SIGNATURE-----"

/-- The text between the two is a sequence of lines, of which the first is blank
or a Version or Comment header. -/
def SigOk (N : Nat) (g : Bytes) : Prop :=
  ∃ l ls, g = unlines (l :: ls) ∧ (∀ x ∈ l :: ls, HeaderLine N x) ∧ (∀ x ∈ ls, x ≠ sigEnd) ∧
    (l = b!" " ∨ b!" Version: " <+: l ∨ b!" Comment: " <+: l)

/-- Prefixes of the header lines that have a meaning in a commit. -/
def knownHeaders : List Bytes :=
  [b!"tree ", b!"parent ", b!"author ", b!"committer ", b!"encoding ", b!"mergetag object ", b!"gpgsig "]

/-- Any other header line. -/
structure OtherOk (N : Nat) (l : Bytes) : Prop where
  line : HeaderLine N l
  nonempty : l ≠ []
  unknown : ∀ p ∈ knownHeaders, ¬ p <+: l

/-- Optional encoding header. -/
def encodingText : Option Bytes → Bytes
  | some e => unlines [b!"encoding " ++ e]
  | none => []

/-- Optional signature block. -/
def sigText : Option Bytes → Bytes
  | some g => unlines [sigBegin] ++ g ++ unlines [sigEnd]
  | none => []

/-- Body of a commit object. -/
def commitBody (c : Commit) (author committer : PersonInfo) : Bytes :=
  unlines [b!"tree " ++ hex (digest c.tree)]
  ++ unlines (c.parents.map fun p => b!"parent " ++ hex (digest p))
  ++ unlines [b!"author " ++ personText author, b!"committer " ++ personText committer]
  ++ encodingText c.encoding
  ++ c.mergetag.flatMap mergeTagText
  ++ sigText c.signature
  ++ unlines c.other
  ++ unlines [b!""]
  ++ c.message

/-- The fields of the commit fit the format. -/
structure CommitOk (N : Nat) (c : Commit) (author committer : PersonInfo) : Prop where
  tree : IsGitLink c.tree
  parents : ∀ p ∈ c.parents, IsGitLink p
  authorIs : c.author = some author
  authorOk : PersonOk author
  authorLine : HeaderLine N (b!"author " ++ personText author)
  committerIs : c.committer = some committer
  committerOk : PersonOk committer
  committerLine : HeaderLine N (b!"committer " ++ personText committer)
  encoding : ∀ e, c.encoding = some e → HeaderLine N (b!"encoding " ++ e)
  mergetag : ∀ t ∈ c.mergetag, MergeTagOk N t
  signature : ∀ g, c.signature = some g → SigOk N g
  other : ∀ l ∈ c.other, OtherOk N l
  /-- a header that directly follows a merge tag is not a continuation line -/
  afterTag : c.mergetag ≠ [] → c.signature = none → ∀ l, c.other.head? = some l → l.head? ≠ some SP

/-! ## Commits as sequences of header items

Headers in any order, any number of times; hexadecimal digits of either case. -/

/-- A header item of a commit. References come with their text `h`. -/
inductive Item where
  | tree (h sha : Bytes)
  | parent (h sha : Bytes)
  | author (p : PersonInfo)
  | committer (p : PersonInfo)
  | encoding (e : Bytes)
  | mergetag (h : Bytes) (t : Tag)
  | sig (g : Bytes)
  | other (l : Bytes)

/-- The lines of an item. -/
def Item.text : Item → Bytes
  | .tree h _ => unlines [b!"tree " ++ h]
  | .parent h _ => unlines [b!"parent " ++ h]
  | .author p => unlines [b!"author " ++ personText p]
  | .committer p => unlines [b!"committer " ++ personText p]
  | .encoding e => unlines [b!"encoding " ++ e]
  | .mergetag h t => mergeTagBlock h t
  | .sig g => unlines [sigBegin] ++ g ++ unlines [sigEnd]
  | .other l => unlines [l]

/-- The text `h` refers to the git object with hash `sha`. -/
def Ref (h sha : Bytes) : Prop := HexOf h sha ∧ sha.length = 20

/-- The item is well formed. -/
def Item.Ok (N : Nat) : Item → Prop
  | .tree h sha => Ref h sha
  | .parent h sha => Ref h sha
  | .author p => PersonOk p ∧ HeaderLine N (b!"author " ++ personText p)
  | .committer p => PersonOk p ∧ HeaderLine N (b!"committer " ++ personText p)
  | .encoding e => HeaderLine N (b!"encoding " ++ e)
  | .mergetag h t => Ref h (digest t.object) ∧ MergeTagOk N t
  | .sig g => SigOk N g
  | .other l => OtherOk N l

/-- The items are well formed, and no continuation line of an unknown header
directly follows a merge tag (it would belong to the merge tag). -/
def ItemsOk (N : Nat) : List Item → Prop
  | [] => True
  | i :: is => i.Ok N ∧
      (∀ h t l, i = .mergetag h t → is.head? = some (.other l) → l.head? ≠ some SP) ∧ ItemsOk N is

/-- What an item means for the commit: scalar headers overwrite, list headers
append. -/
def Item.apply (c : Commit) : Item → Commit
  | .tree _ sha => { c with tree := gitLink sha }
  | .parent _ sha => { c with parents := c.parents ++ [gitLink sha] }
  | .author p => { c with author := some p }
  | .committer p => { c with committer := some p }
  | .encoding e => { c with encoding := some e }
  | .mergetag _ t => { c with mergetag := c.mergetag ++ [t] }
  | .sig g => { c with signature := some g }
  | .other l => { c with other := c.other ++ [l] }

/-- A commit with none of the headers. -/
def noCommit : Commit where
  tree := .nil
  parents := []
  message := []
  author := none
  committer := none
  encoding := none
  signature := none
  mergetag := []
  other := []

/-- The commit that a sequence of headers and a message describe. -/
def commitOf (is : List Item) (msg : Bytes) : Commit :=
  { is.foldl Item.apply noCommit with message := msg }

/-- Text of a sequence of headers. -/
def itemsText (is : List Item) : Bytes := is.flatMap Item.text

/-- Body of the commit with the given headers and message. -/
def itemsBody (is : List Item) (msg : Bytes) : Bytes := itemsText is ++ LF :: msg

/-! ## Tags as sequences of header lines -/

/-- A header line of a tag. -/
inductive TagItem where
  | object (h sha : Bytes)
  | typ (x : Bytes)
  | tag (x : Bytes)
  | tagger (p : PersonInfo)
  | unknown (l : Bytes)

/-- The line, without its end. -/
def TagItem.line : TagItem → Bytes
  | .object h _ => b!"object " ++ h
  | .typ x => b!"type " ++ x
  | .tag x => b!"tag " ++ x
  | .tagger p => b!"tagger " ++ personText p
  | .unknown l => l

/-- The header line is well formed. -/
def TagItem.Ok (N : Nat) : TagItem → Prop
  | .object h sha => Ref h sha
  | .typ x => HeaderLine N (b!"type " ++ x)
  | .tag x => HeaderLine N (b!"tag " ++ x)
  | .tagger p => PersonOk p ∧ HeaderLine N (b!"tagger " ++ personText p)
  | .unknown l => HeaderLine N l ∧ l ≠ [] ∧
      ∀ p ∈ [b!"object ", b!"type ", b!"tag ", b!"tagger "], ¬ p <+: l

/-- What the header line means for the tag. -/
def TagItem.apply (t : Tag) : TagItem → Tag
  | .object _ sha => { t with object := gitLink sha }
  | .typ x => { t with typ := x }
  | .tag x => { t with tag := x }
  | .tagger p => { t with tagger := p }
  | .unknown _ => t

/-- A tag with none of the headers. -/
def noTag : Tag where
  object := .nil
  typ := []
  tag := []
  tagger := ⟨[], [], [], []⟩
  message := []

/-- The tag that a sequence of header lines and a message describe. -/
def tagOf (is : List TagItem) (msg : Bytes) : Tag :=
  { is.foldl TagItem.apply noTag with message := msg }

/-- Header lines of a tag. -/
def tagItemsText (is : List TagItem) : Bytes := unlines (is.map TagItem.line)

end Verif.Spec
