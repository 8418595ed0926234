import Verif.Model.Num
import Verif.Model.Hex
import Verif.Model.Person

/-!
# Encoders on the package's own values

The bytes that `encodeBlob`, `encodeTree`, `encodeCommit` and `encodeTag` write
for `*_Blob`, `*_Tree`, `*_Commit` and `*_Tag` nodes. Encoding of arbitrary
nodes is in `Verif.Model.EncodeNode`.
-/

namespace Verif

/-- Header written before the body: `fmt.Fprintf(w, "<word> %d\x00", buf.Len())`,
/repo/tree.go:96, /repo/commit.go:202, /repo/tag.go:186. -/
def withHeader (word body : Bytes) : Bytes :=
  word ++ [SP] ++ decimal body.length ++ [NUL] ++ body

/-- `encodeTreeEntry`, /repo/tree.go:104-132, on a `_TreeEntry`. The type
assertion `hal.(cidlink.Link)` panics for any other link. -/
def encTreeEntry (name : Bytes) (e : TreeEntry) : Res Bytes :=
  match e.hash with
  | .cid c => do
    let h ← cidToSha c
    .ok (e.mode ++ [SP] ++ name ++ [NUL] ++ h)
  | _ => .panic

/-- The loop of `encodeTree`, /repo/tree.go:82-94. -/
def encTreeEntries : List (Bytes × TreeEntry) → Res Bytes
  | [] => .ok []
  | (name, e) :: r => do
    let a ← encTreeEntry name e
    let b ← encTreeEntries r
    .ok (a ++ b)

/-- `encodeTree`, /repo/tree.go:78-102. -/
def encTree (t : Tree) : Res Bytes := do
  let body ← encTreeEntries t.t
  .ok (withHeader b!"tree" body)

/-- `encodeTag`, /repo/tag.go:127-191, on a `_Tag`. The tagger of a typed tag is
always there (never null). -/
def encTag (t : Tag) : Res Bytes := do
  let h ← linkSha t.object
  let body :=
    b!"object " ++ hexEncode h ++ [LF]
    ++ b!"type " ++ t.typ ++ [LF]
    ++ b!"tag " ++ t.tag ++ [LF]
    ++ b!"tagger " ++ gitString t.tagger ++ [LF]
    ++ (if t.message ≠ [] then LF :: t.message else [])
  .ok (withHeader b!"tag" body)

/-- Parent lines, /repo/commit.go:175-177. -/
def encParents : List Link → Res Bytes
  | [] => .ok []
  | p :: r => do
    let h ← linkSha p
    let b ← encParents r
    .ok (b!"parent " ++ hexEncode h ++ [LF] ++ b)

/-- Merge tag, /repo/commit.go:183-189. -/
def encMergeTag (t : Tag) : Res Bytes := do
  let h ← linkSha t.object
  .ok (b!"mergetag object " ++ hexEncode h ++ [LF]
    ++ b!" type " ++ t.typ ++ [LF]
    ++ b!" tag " ++ t.tag ++ [LF]
    ++ b!" tagger " ++ gitString t.tagger ++ b!"\n \n"
    ++ t.message)

/-- Loop over merge tags, /repo/commit.go:183-189. -/
def encMergeTags : List Tag → Res Bytes
  | [] => .ok []
  | t :: r => do
    let a ← encMergeTag t
    let b ← encMergeTags r
    .ok (a ++ b)

/-- `c.author.v.GitString()`: the method has a value receiver, so a nil pointer
(absent author) panics. /repo/commit.go:178-179. -/
def personOrPanic : Option PersonInfo → Res Bytes
  | none => .panic
  | some p => .ok (gitString p)

/-- `fmt.Fprintln(buf, line.x)` for every other line, /repo/commit.go:195-197. -/
def encOther (ls : List Bytes) : Bytes := ls.flatMap fun l => l ++ [LF]

/-- `encodeCommit`, /repo/commit.go:165-209, on a `_Commit`. -/
def encCommit (c : Commit) : Res Bytes := do
  let th ← linkSha c.tree
  let ps ← encParents c.parents
  let au ← personOrPanic c.author
  let co ← personOrPanic c.committer
  let ms ← encMergeTags c.mergetag
  let body :=
    b!"tree " ++ hexEncode th ++ [LF]
    ++ ps
    ++ b!"author " ++ au ++ [LF]
    ++ b!"committer " ++ co ++ [LF]
    ++ (match c.encoding with
        | some e => b!"encoding " ++ e ++ [LF]
        | none => [])
    ++ ms
    ++ (match c.signature with
        | some g => b!"gpgsig -----BEGIN PGP SIGNATURE-----\n" ++ g
            ++ b!" -----END PGP SIGNATURE-----\n"
        | none => [])
    ++ encOther c.other
    ++ (LF :: c.message)
  .ok (withHeader b!"commit" body)

/-- `Encode`, /repo/marshal.go:11-51, on the package's own nodes: the bytes
written to a writer that does not fail. -/
def encObj : Obj → Res Bytes
  | .blob b => .ok b
  | .tree t => encTree t
  | .commit c => encCommit c
  | .tag t => encTag t

end Verif
