import Verif.Model.Num
import Verif.Model.Hex
import Verif.Model.Reader
import Verif.Model.Person

/-!
# Decoders

`/repo/blob.go`, `/repo/tree.go`, `/repo/commit.go`, `/repo/tag.go`,
`/repo/helper.go`, `/repo/unmarshal.go`.

The `fuel` arguments bound recursion; callers pass one more than the number of
bytes left. The values handed to `na.AssignNode`/`na.AssignBytes` are the
results here; `decode` below feeds them to an assembler.
-/

namespace Verif

variable {σ : Type} [Reader σ]

/-- `readNullTerminatedNumber`, /repo/helper.go:45-53. -/
def readNum (s : σ) : Res (Int × σ) := do
  let (l, s) ← Reader.readString NUL s
  let l ← chop l
  let n ← atoi l
  .ok (n, s)

/-! ## Blob -/

/-- `DecodeBlob`, /repo/blob.go:13-44, up to the final `na.AssignBytes`. -/
def decodeBlob (s : σ) : Res Bytes := do
  let (sizen, s) ← readNum s
  if sizen < 0 then .err .negSize
  else do
    let pre := b!"blob " ++ decimal sizen.toNat ++ [NUL]
    let (body, _) ← Reader.readLimited sizen.toNat s
    if body.length ≠ sizen.toNat then
      if body.length = 0 then .err .eof else .err .unexpectedEof
    else .ok (pre ++ body)

/-! ## Tree -/

/-- `DecodeTreeEntry`, /repo/tree.go:47-76. -/
def decodeTreeEntry (s : σ) : Res ((Bytes × TreeEntry) × σ) := do
  let (data, s) ← Reader.readString SP s
  let data ← chop data
  let (name, s) ← Reader.readString NUL s
  let name ← chop name
  let (sha, s) ← Reader.readFull 20 s
  let c ← shaToCid sha
  .ok ((name, { mode := data, hash := .cid c }), s)

/-- `ma.AssembleEntry(name)` followed by `ee.AssignNode(node)` on a
`Tree__Repr` assembler, /repo/tree.go:32-38,
/repo/ipldsch_satisfaction.go `_Tree__ReprAssembler.AssembleEntry`: a name
already in the map is an `ErrRepeatedMapKey`; otherwise the table grows by one
entry and the map gets the new key. -/
def treeAdd (t : Tree) (name : Bytes) (e : TreeEntry) : Res Tree :=
  match mapGet t.m name with
  | some _ => .err .repeatedKey
  | none => .ok { m := mapSet t.m name e, t := t.t ++ [(name, e)] }

/-- The loop of `DecodeTree`, /repo/tree.go:24-39. Any `io.EOF` from
`DecodeTreeEntry` ends the tree. -/
def treeLoop : Nat → Tree → σ → Res Tree
  | 0, _, _ => .err .fuel
  | fuel + 1, t, s =>
    match decodeTreeEntry s with
    | .err .eof => .ok t
    | .err e => .err e
    | .panic => .panic
    | .ok ((name, e), s) => do
      let t ← treeAdd t name e
      treeLoop fuel t s

/-- `DecodeTree`, /repo/tree.go:14-44. -/
def decodeTree (s : σ) : Res Tree := do
  let (_, s) ← readNum s
  treeLoop (Reader.left s + 1) { m := [], t := [] } s

/-! ## Tag -/

/-- One iteration of the `switch` in `DecodeTag`, /repo/tag.go:37-69. A line
that is not understood is printed to stdout and dropped. -/
def tagLine (out : Tag) (line : Bytes) (s : σ) : Res (Tag × σ) :=
  if hasPrefix line b!"object " then do
    let h ← sliceFrom line 7
    let sha ← hexDecode h
    let c ← shaToCid sha
    .ok ({ out with object := .cid c }, s)
  else if hasPrefix line b!"tag " then do
    let x ← sliceFrom line 4
    .ok ({ out with tag := x }, s)
  else if hasPrefix line b!"tagger " then do
    let p ← parsePersonInfo line
    .ok ({ out with tagger := p }, s)
  else if hasPrefix line b!"type " then do
    let x ← sliceFrom line 5
    .ok ({ out with typ := x }, s)
  else if line.length = 0 then do
    let (rest, s) ← Reader.readAll s
    .ok ({ out with message := rest }, s)
  else .ok (out, s)

/-- The loop of `DecodeTag`, /repo/tag.go:28-70. -/
def tagLoop : Nat → Tag → σ → Res Tag
  | 0, _, _ => .err .fuel
  | fuel + 1, out, s =>
    match Reader.readLine s with
    | .err .eof => .ok out
    | .err e => .err e
    | .panic => .panic
    | .ok (line, s) => do
      let (out, s) ← tagLine out line s
      tagLoop fuel out s

/-- `DecodeTag`, /repo/tag.go:20-73. The size header is skipped, not parsed. -/
def decodeTag (s : σ) : Res Tag := do
  let (_, s) ← Reader.readString NUL s
  tagLoop (Reader.left s + 1) Tag.zero s

/-- The message loop of `readMergeTag`, /repo/tag.go:107-121. Returns the
message and the first line that does not start with a space; any error,
including EOF, is returned. -/
def mergeMsgLoop : Nat → Bytes → σ → Res ((Bytes × Bytes) × σ)
  | 0, _, _ => .err .fuel
  | fuel + 1, msg, s =>
    match Reader.readLine s with
    | .err e => .err e
    | .panic => .panic
    | .ok (line, s) =>
      if ¬ hasPrefix line b!" " then .ok ((msg, line), s)
      else mergeMsgLoop fuel (msg ++ (line ++ [LF])) s

/-- The outer loop of `readMergeTag`, /repo/tag.go:84-124. Lines that match no
case are skipped. The second component is `rest` (`none` for nil). -/
def mergeTagLoop : Nat → Tag → σ → Res ((Tag × Option Bytes) × σ)
  | 0, _, _ => .err .fuel
  | fuel + 1, out, s =>
    match Reader.readLine s with
    | .err .eof => .ok ((out, none), s)
    | .err e => .err e
    | .panic => .panic
    | .ok (line, s) =>
      if hasPrefix line b!" type " then do
        let x ← sliceFrom line 6
        mergeTagLoop fuel { out with typ := x } s
      else if hasPrefix line b!" tag " then do
        let x ← sliceFrom line 5
        mergeTagLoop fuel { out with tag := x } s
      else if hasPrefix line b!" tagger " then do
        let l ← sliceFrom line 1
        let p ← parsePersonInfo l
        mergeTagLoop fuel { out with tagger := p } s
      else if line = b!" " then do
        let ((msg, rest), s) ← mergeMsgLoop (Reader.left s + 1) [] s
        .ok (({ out with message := msg }, some rest), s)
      else mergeTagLoop fuel out s

/-- `readMergeTag`, /repo/tag.go:76-125. -/
def readMergeTag (hash : Bytes) (s : σ) : Res ((Tag × Option Bytes) × σ) := do
  let c ← shaToCid hash
  mergeTagLoop (Reader.left s + 1) { Tag.zero with object := .cid c } s

/-! ## Commit -/

/-- The loop of `decodeGpgSig`, /repo/commit.go:147-159. -/
def sigLoop : Nat → Bytes → σ → Res (Bytes × σ)
  | 0, _, _ => .err .fuel
  | fuel + 1, sig, s =>
    match Reader.readLine s with
    | .err e => .err e
    | .panic => .panic
    | .ok (line, s) =>
      if line = b!" -----END PGP SIGNATURE-----" then .ok (sig, s)
      else sigLoop fuel (sig ++ (line ++ [LF])) s

/-- `decodeGpgSig`, /repo/commit.go:125-163. -/
def decodeGpgSig (s : σ) : Res (Bytes × σ) := do
  let (line, s) ← Reader.readLine s
  let sig ←
    (if line ≠ b!" " then
      if hasPrefix line b!" Version: " || hasPrefix line b!" Comment: " then .ok (line ++ [LF])
      else .err .badSig
    else .ok b!" \n")
  sigLoop (Reader.left s + 1) sig s

/-- `decodeCommitLine`, /repo/commit.go:45-123. The recursion (line 101) is on
the line that ended a merge tag. -/
def commitLine : Nat → Commit → Bytes → σ → Res (Commit × σ)
  | 0, _, _, _ => .err .fuel
  | fuel + 1, c, line, s =>
    if hasPrefix line b!"tree " then do
      let h ← sliceFrom line 5
      let sha ← hexDecode h
      let cid ← shaToCid sha
      .ok ({ c with tree := .cid cid }, s)
    else if hasPrefix line b!"parent " then do
      let h ← sliceFrom line 7
      let sha ← hexDecode h
      let cid ← shaToCid sha
      .ok ({ c with parents := c.parents ++ [.cid cid] }, s)
    else if hasPrefix line b!"author " then do
      let p ← parsePersonInfo line
      .ok ({ c with author := some p }, s)
    else if hasPrefix line b!"committer " then do
      let p ← parsePersonInfo line
      .ok ({ c with committer := some p }, s)
    else if hasPrefix line b!"encoding " then do
      let x ← sliceFrom line 9
      .ok ({ c with encoding := some x }, s)
    else if hasPrefix line b!"mergetag object " then do
      let h ← sliceFrom line 16
      let sha ← hexDecode h
      let ((mt, rest), s) ← readMergeTag sha s
      let c := { c with mergetag := c.mergetag ++ [mt] }
      match rest with
      | none => .ok (c, s)
      | some l => commitLine fuel c l s
    else if hasPrefix line b!"gpgsig " then do
      let (sig, s) ← decodeGpgSig s
      .ok ({ c with signature := some sig }, s)
    else if line.length = 0 then do
      let (rest, s) ← Reader.readAll s
      .ok ({ c with message := rest }, s)
    else .ok ({ c with other := c.other ++ [line] }, s)

/-- The loop of `DecodeCommit`, /repo/commit.go:27-40. -/
def commitLoop : Nat → Commit → σ → Res Commit
  | 0, _, _ => .err .fuel
  | fuel + 1, c, s =>
    match Reader.readLine s with
    | .err .eof => .ok c
    | .err e => .err e
    | .panic => .panic
    | .ok (line, s) => do
      let (c, s) ← commitLine (Reader.left s + 1) c line s
      commitLoop fuel c s

/-- `DecodeCommit`, /repo/commit.go:19-43. -/
def decodeCommit (s : σ) : Res Commit := do
  let (_, s) ← readNum s
  commitLoop (Reader.left s + 1) Commit.zero s

/-! ## Dispatch -/

/-- The type word, /repo/unmarshal.go:15-22 and 42-49. -/
def readType (s : σ) : Res (Bytes × σ) :=
  match Reader.readString SP s with
  | .err .eof => .err .unexpectedEof
  | .err e => .err e
  | .panic => .panic
  | .ok (typ, s) => do
    let typ ← chop typ
    .ok (typ, s)

/-- `ParseObject`, /repo/unmarshal.go:39-75. The builders of the package accept
the package's own nodes as they are (/repo/ipldsch_satisfaction.go, the
`v2, ok := v.(*_T)` branch of each `AssignNode`, and `_Blob__Assembler.AssignBytes`). -/
def parseObject (s : σ) : Res Obj := do
  let (typ, s) ← readType s
  if typ = b!"tree" then do
    let t ← decodeTree s
    .ok (.tree t)
  else if typ = b!"commit" then do
    let c ← decodeCommit s
    .ok (.commit c)
  else if typ = b!"blob" then do
    let b ← decodeBlob s
    .ok (.blob b)
  else if typ = b!"tag" then do
    let t ← decodeTag s
    .ok (.tag t)
  else .err .badType

/-- What the decoders need from an `ipld.NodeAssembler`: `AssignNode` of a typed
node (trees, commits, tags) and `AssignBytes` (blobs). The parameter `na` of
/repo/unmarshal.go:12-36. -/
structure Sink (β : Type) where
  assignNode : Obj → Res β
  assignBytes : Bytes → Res β

/-- `Decode`, /repo/unmarshal.go:12-36, for any assembler. -/
def decode {β : Type} (na : Sink β) (s : σ) : Res β := do
  let (typ, s) ← readType s
  if typ = b!"tree" then do
    let t ← decodeTree s
    na.assignNode (.tree t)
  else if typ = b!"commit" then do
    let c ← decodeCommit s
    na.assignNode (.commit c)
  else if typ = b!"blob" then do
    let b ← decodeBlob s
    na.assignBytes b
  else if typ = b!"tag" then do
    let t ← decodeTag s
    na.assignNode (.tag t)
  else .err .badType

end Verif
