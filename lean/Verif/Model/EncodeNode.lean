import Verif.Model.Encode
import Verif.Model.Assemble

/-!
# `Encode` on arbitrary nodes (`/repo/marshal.go`, `blob.go`, `tree.go`, `tag.go`, `commit.go`)

The bytes that `Encode` hands to the writer, split into the calls it makes: a
blob is a single `Write`; the others are a formatted header and then a buffered
body. Writers that fail are in `Verif.Model.Writer`.
-/

namespace Verif

/-- What an encoder writes: one `w.Write(b)`, or `fmt.Fprintf(w, "<word> %d\x00",
buf.Len())` followed by `buf.WriteTo(w)`. -/
inductive Out where
  | raw (b : Bytes)
  | framed (word body : Bytes)
  deriving DecidableEq, Repr

/-- All bytes of an output. -/
def Out.bytes : Out → Bytes
  | .raw b => b
  | .framed word body => withHeader word body

/-- `encodeBlob`, /repo/blob.go:46-54. -/
def encodeBlob (n : Node) : Res Out := do
  let b ← n.asBytes
  .ok (.raw b)

/-- `encodeTreeEntry`, /repo/tree.go:104-132: the bytes added to the buffer. The
type assertion `hal.(cidlink.Link)` panics for other links. -/
def encodeTreeEntry (name : Bytes) (n : Node) : Res Bytes := do
  let m ← n.lookup b!"mode"
  let ms ← m.asString
  let ha ← n.lookup b!"hash"
  let hal ← ha.asLink
  match hal with
  | .cid c => do
    let h ← cidToSha c
    .ok (ms ++ [SP] ++ name ++ [NUL] ++ h)
  | _ => .panic

/-- The loop of `encodeTree`, /repo/tree.go:82-94. -/
def encodeTreeEntries : List (Bytes × Node) → Res Bytes
  | [] => .ok []
  | (k, v) :: r => do
    let a ← encodeTreeEntry k v
    let b ← encodeTreeEntries r
    .ok (a ++ b)

/-- `encodeTree`, /repo/tree.go:78-102. The iterator of a list node is nil, and
calling `Done` on it panics. -/
def encodeTree (n : Node) : Res Out :=
  match n.mapIterator with
  | none => .panic
  | some es => do
    let body ← encodeTreeEntries es
    .ok (.framed b!"tree" body)

/-- The tagger line of `encodeTag`, /repo/tag.go:162, 169-181: left out when the
lookup fails or gives null. -/
def encodeTagger : Res Node → Res Bytes
  | .ok tagger =>
    if tagger.isNull then .ok []
    else do
      let p ← buildPerson tagger
      .ok (b!"tagger " ++ gitString p ++ [LF])
  | .err _ => .ok []
  | .panic => .panic

/-- `encodeTag`, /repo/tag.go:127-191. -/
def encodeTag (n : Node) : Res Out := do
  let obj ← n.lookup b!"object"
  let objLnk ← obj.asLink
  let tt ← n.lookup b!"type"
  let ttStr ← tt.asString
  let tag ← n.lookup b!"tag"
  let tagStr ← tag.asString
  let message ← n.lookup b!"message"
  let messageStr ← message.asString
  let h ← linkSha objLnk
  let tl ← encodeTagger (n.lookup b!"tagger")
  .ok (.framed b!"tag" (
    b!"object " ++ hexEncode h ++ [LF]
    ++ b!"type " ++ ttStr ++ [LF]
    ++ b!"tag " ++ tagStr ++ [LF]
    ++ tl
    ++ (if messageStr ≠ [] then LF :: messageStr else [])))

/-- The body that `encodeCommit` formats from the built commit,
/repo/commit.go:172-198. -/
def commitBody (c : Commit) : Res Bytes := do
  let th ← linkSha c.tree
  let ps ← encParents c.parents
  let au ← personOrPanic c.author
  let co ← personOrPanic c.committer
  let ms ← encMergeTags c.mergetag
  .ok (
    b!"tree " ++ hexEncode th ++ [LF]
    ++ ps
    ++ b!"author " ++ au ++ [LF]
    ++ b!"committer " ++ co ++ [LF]
    ++ (match c.encoding with
        | some e => b!"encoding " ++ e ++ [LF]
        | none => [])
    ++ ms
    ++ (match c.signature with
        | some g => b!"gpgsig -----BEGIN PGP SIGNATURE-----\n" ++ g
            ++ b!" -----END PGP SIGNATURE-----\n"
        | none => [])
    ++ encOther c.other
    ++ (LF :: c.message))

/-- `encodeCommit`, /repo/commit.go:165-209. -/
def encodeCommit (n : Node) : Res Out := do
  let c ← buildCommit n
  let body ← commitBody c
  .ok (.framed b!"commit" body)

/-- `Encode`, /repo/marshal.go:11-51: by prototype for the package's own types in
either view, otherwise by kind and first key. -/
def encode (n : Node) : Res Out :=
  match n with
  | .own (.blob _) | .repr (.blob _) => encodeBlob n
  | .own (.commit _) | .repr (.commit _) => encodeCommit n
  | .own (.tree _) | .repr (.tree _) => encodeTree n
  | .own (.tag _) | .repr (.tag _) => encodeTag n
  | _ =>
    match n.kind with
    | .bytes => encodeBlob n
    | .list => encodeTree n
    | .map =>
      match n.mapIterator with
      | none => .panic
      | some [] => .err .iterOver
      | some ((k, _) :: _) =>
        if k = b!"object" ∨ k = b!"type" ∨ k = b!"tag" ∨ k = b!"tagger" ∨ k = b!"text" then
          encodeTag n
        else encodeCommit n
    | _ => .err .badType

/-- The bytes `Encode` writes to a writer that does not fail.
/repo/marshal.go:11-51. -/
def encodeBytes (n : Node) : Res Bytes := do
  let o ← encode n
  .ok o.bytes

end Verif
