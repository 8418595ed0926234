import Verif.Model.Decode
import Verif.Model.Bufio

/-!
# Lines that point into the reader's buffer

`ReadLine` does not return a copy: its slice points into the buffer and is
overwritten by later reads. In `Verif.Model.Decode` lines are values. Here they
are slices, and every use of a line looks at the memory as it is at that moment.
The functions are those of `Verif.Model.Decode` otherwise.

The second half is `bufio.Reader` with its memory.
-/

namespace Verif

/-- A slice of the reader's buffer, `buf[lo:hi]`. -/
structure Slice where
  lo : Nat
  hi : Nat
  deriving DecidableEq, Repr

/-- A reader whose `ReadLine` returns a slice of its buffer. -/
class LineReader (σ : Type) extends Reader σ where
  readSliceLine : σ → Res (Slice × σ)
  /-- What a slice shows, in the present state of the buffer. -/
  view : σ → Slice → Bytes

open LineReader

namespace Alias

variable {σ : Type} [LineReader σ]

/-- One iteration of the `switch` in `DecodeTag`, /repo/tag.go:37-69. -/
def tagLine (out : Tag) (line : Slice) (s : σ) : Res (Tag × σ) :=
  if hasPrefix (view s line) b!"object " then do
    let h ← sliceFrom (view s line) 7
    let sha ← hexDecode h
    let c ← shaToCid sha
    .ok ({ out with object := .cid c }, s)
  else if hasPrefix (view s line) b!"tag " then do
    let x ← sliceFrom (view s line) 4
    .ok ({ out with tag := x }, s)
  else if hasPrefix (view s line) b!"tagger " then do
    let p ← parsePersonInfo (view s line)
    .ok ({ out with tagger := p }, s)
  else if hasPrefix (view s line) b!"type " then do
    let x ← sliceFrom (view s line) 5
    .ok ({ out with typ := x }, s)
  else if (view s line).length = 0 then do
    let (rest, s) ← Reader.readAll s
    .ok ({ out with message := rest }, s)
  else .ok (out, s)

/-- The loop of `DecodeTag`, /repo/tag.go:28-70. -/
def tagLoop : Nat → Tag → σ → Res Tag
  | 0, _, _ => .err .fuel
  | fuel + 1, out, s =>
    match readSliceLine s with
    | .err .eof => .ok out
    | .err e => .err e
    | .panic => .panic
    | .ok (line, s) => do
      let (out, s) ← tagLine out line s
      tagLoop fuel out s

/-- `DecodeTag`, /repo/tag.go:20-73. -/
def decodeTag (s : σ) : Res Tag := do
  let (_, s) ← Reader.readString NUL s
  tagLoop (Reader.left s + 1) Tag.zero s

/-- The message loop of `readMergeTag`, /repo/tag.go:107-121. The line it returns
is a slice. -/
def mergeMsgLoop : Nat → Bytes → σ → Res ((Bytes × Slice) × σ)
  | 0, _, _ => .err .fuel
  | fuel + 1, msg, s =>
    match readSliceLine s with
    | .err e => .err e
    | .panic => .panic
    | .ok (line, s) =>
      if ¬ hasPrefix (view s line) b!" " then .ok ((msg, line), s)
      else mergeMsgLoop fuel (msg ++ (view s line ++ [LF])) s

/-- The outer loop of `readMergeTag`, /repo/tag.go:84-124. -/
def mergeTagLoop : Nat → Tag → σ → Res ((Tag × Option Slice) × σ)
  | 0, _, _ => .err .fuel
  | fuel + 1, out, s =>
    match readSliceLine s with
    | .err .eof => .ok ((out, none), s)
    | .err e => .err e
    | .panic => .panic
    | .ok (line, s) =>
      if hasPrefix (view s line) b!" type " then do
        let x ← sliceFrom (view s line) 6
        mergeTagLoop fuel { out with typ := x } s
      else if hasPrefix (view s line) b!" tag " then do
        let x ← sliceFrom (view s line) 5
        mergeTagLoop fuel { out with tag := x } s
      else if hasPrefix (view s line) b!" tagger " then do
        let l ← sliceFrom (view s line) 1
        let p ← parsePersonInfo l
        mergeTagLoop fuel { out with tagger := p } s
      else if view s line = b!" " then do
        let ((msg, rest), s) ← mergeMsgLoop (Reader.left s + 1) [] s
        .ok (({ out with message := msg }, some rest), s)
      else mergeTagLoop fuel out s

/-- `readMergeTag`, /repo/tag.go:76-125. The hash is decoded, not a slice of the
buffer (/repo/commit.go:87). -/
def readMergeTag (hash : Bytes) (s : σ) : Res ((Tag × Option Slice) × σ) := do
  let c ← shaToCid hash
  mergeTagLoop (Reader.left s + 1) { Tag.zero with object := .cid c } s

/-- The loop of `decodeGpgSig`, /repo/commit.go:147-159. -/
def sigLoop : Nat → Bytes → σ → Res (Bytes × σ)
  | 0, _, _ => .err .fuel
  | fuel + 1, sig, s =>
    match readSliceLine s with
    | .err e => .err e
    | .panic => .panic
    | .ok (line, s) =>
      if view s line = b!" -----END PGP SIGNATURE-----" then .ok (sig, s)
      else sigLoop fuel (sig ++ (view s line ++ [LF])) s

/-- `decodeGpgSig`, /repo/commit.go:125-163. -/
def decodeGpgSig (s : σ) : Res (Bytes × σ) := do
  let (line, s) ← readSliceLine s
  let sig ←
    (if view s line ≠ b!" " then
      if hasPrefix (view s line) b!" Version: " || hasPrefix (view s line) b!" Comment: " then
        .ok (view s line ++ [LF])
      else .err .badSig
    else .ok b!" \n")
  sigLoop (Reader.left s + 1) sig s

/-- `decodeCommitLine`, /repo/commit.go:45-123. The line that ended a merge tag
(line 101) is looked at in the state after the merge tag. -/
def commitLine : Nat → Commit → Slice → σ → Res (Commit × σ)
  | 0, _, _, _ => .err .fuel
  | fuel + 1, c, line, s =>
    if hasPrefix (view s line) b!"tree " then do
      let h ← sliceFrom (view s line) 5
      let sha ← hexDecode h
      let cid ← shaToCid sha
      .ok ({ c with tree := .cid cid }, s)
    else if hasPrefix (view s line) b!"parent " then do
      let h ← sliceFrom (view s line) 7
      let sha ← hexDecode h
      let cid ← shaToCid sha
      .ok ({ c with parents := c.parents ++ [.cid cid] }, s)
    else if hasPrefix (view s line) b!"author " then do
      let p ← parsePersonInfo (view s line)
      .ok ({ c with author := some p }, s)
    else if hasPrefix (view s line) b!"committer " then do
      let p ← parsePersonInfo (view s line)
      .ok ({ c with committer := some p }, s)
    else if hasPrefix (view s line) b!"encoding " then do
      let x ← sliceFrom (view s line) 9
      .ok ({ c with encoding := some x }, s)
    else if hasPrefix (view s line) b!"mergetag object " then do
      let h ← sliceFrom (view s line) 16
      let sha ← hexDecode h
      let ((mt, rest), s) ← readMergeTag sha s
      let c := { c with mergetag := c.mergetag ++ [mt] }
      match rest with
      | none => .ok (c, s)
      | some l => commitLine fuel c l s
    else if hasPrefix (view s line) b!"gpgsig " then do
      let (sig, s) ← decodeGpgSig s
      .ok ({ c with signature := some sig }, s)
    else if (view s line).length = 0 then do
      let (rest, s) ← Reader.readAll s
      .ok ({ c with message := rest }, s)
    else .ok ({ c with other := c.other ++ [view s line] }, s)

/-- The loop of `DecodeCommit`, /repo/commit.go:27-40. -/
def commitLoop : Nat → Commit → σ → Res Commit
  | 0, _, _ => .err .fuel
  | fuel + 1, c, s =>
    match readSliceLine s with
    | .err .eof => .ok c
    | .err e => .err e
    | .panic => .panic
    | .ok (line, s) => do
      let (c, s) ← commitLine (Reader.left s + 1) c line s
      commitLoop fuel c s

/-- `DecodeCommit`, /repo/commit.go:19-43. -/
def decodeCommit (s : σ) : Res Commit := do
  let (_, s) ← readNum s
  commitLoop (Reader.left s + 1) Commit.zero s

/-- `Decode`, /repo/unmarshal.go:12-36. Trees and blobs read no lines. -/
def decode {β : Type} (na : Sink β) (s : σ) : Res β := do
  let (typ, s) ← readType s
  if typ = b!"tree" then do
    let t ← decodeTree s
    na.assignNode (.tree t)
  else if typ = b!"commit" then do
    let c ← decodeCommit s
    na.assignNode (.commit c)
  else if typ = b!"blob" then do
    let b ← decodeBlob s
    na.assignBytes b
  else if typ = b!"tag" then do
    let t ← decodeTag s
    na.assignNode (.tag t)
  else .err .badType

/-- `ParseObject`, /repo/unmarshal.go:39-75. -/
def parseObject (s : σ) : Res Obj := decode ⟨.ok, fun b => .ok (.blob b)⟩ s

end Alias

/-! ## `bufio.Reader` with its memory -/

/-- State of a `bufio.Reader`: the buffer, the positions of the unread bytes in it,
the pending error and the underlying reader. `scribble` is what the underlying
reader does to the part of the buffer it was given but did not fill (an
`io.Reader` may use all of it as scratch space). -/
structure MemBuf (ρ : Type) where
  mem : Bytes
  r : Nat
  w : Nat
  err : Option Err
  src : ρ
  room : Nat → Nat
  scribble : Bytes → Bytes

namespace MemBuf

variable {ρ : Type} [Source ρ]

/-- `b.buf[lo:hi]`. -/
def view (b : MemBuf ρ) (l : Slice) : Bytes := (b.mem.drop l.lo).take (l.hi - l.lo)

/-- `b.buf[b.r:b.w]`. -/
def unread (b : MemBuf ρ) : Bytes := b.view ⟨b.r, b.w⟩

/-- `b.rd.Read(b.buf[b.w:])`; the caller's `b.w += n` included. A reader that
claims more than it was given room for panics in the following slicing. -/
def readIn (b : MemBuf ρ) : Res ((Nat × Option Err) × MemBuf ρ) :=
  let x := Source.read (b.mem.length - b.w) b.src
  if b.mem.length < b.w + x.1.1.length then .panic
  else .ok ((x.1.1.length, x.1.2), { b with
    mem := b.mem.take b.w ++ x.1.1 ++ b.scribble (b.mem.drop (b.w + x.1.1.length)),
    w := b.w + x.1.1.length, src := x.2 })

/-- The loop of `fill`. -/
def fillLoop : Nat → MemBuf ρ → Res (MemBuf ρ)
  | 0, b => .ok { b with err := some .noProgress }
  | i + 1, b => do
    let ((n, e), b) ← readIn b
    match e with
    | some e => .ok { b with err := some e }
    | none => if 0 < n then .ok b else fillLoop i b

/-- `fill`: slide the unread bytes to the front, then read. -/
def fill (b : MemBuf ρ) : Res (MemBuf ρ) :=
  let b := if 0 < b.r then
      { b with mem := b.unread ++ b.mem.drop b.unread.length, r := 0, w := b.w - b.r }
    else b
  if b.mem.length ≤ b.w then .panic else fillLoop 100 b

/-- `ReadSlice(delim)`. The position up to which the delimiter was already searched
is left out. -/
def readSlice (d : UInt8) : Nat → MemBuf ρ → Res ((Slice × Bufio.End) × MemBuf ρ)
  | 0, _ => .err .fuel
  | f + 1, b =>
    match splitAt d b.unread with
    | some (x, _) =>
      .ok ((⟨b.r, b.r + x.length + 1⟩, .found), { b with r := b.r + x.length + 1 })
    | none =>
      match b.err with
      | some e => .ok ((⟨b.r, b.w⟩, .err e), { b with r := b.w, err := none })
      | none =>
        if b.mem.length ≤ b.w - b.r then .ok ((⟨0, b.mem.length⟩, .full), { b with r := b.w })
        else do
          let b ← fill b
          readSlice d f b

/-- `ReadLine()`. -/
def readSliceLine (b : MemBuf ρ) : Res (Slice × MemBuf ρ) := do
  let ((l, e), b) ← readSlice LF (b.mem.length + 2) b
  match e with
  | .full =>
    if (b.view l).getLast? = some CR then
      if b.r = 0 then .panic else .ok (⟨l.lo, l.hi - 1⟩, { b with r := b.r - 1 })
    else .ok (l, b)
  | .err e => if l.hi - l.lo = 0 then .err e else .ok (l, b)
  | .found =>
    if (b.view l).getLast? = some LF then
      if 1 < l.hi - l.lo ∧ (b.view ⟨l.lo, l.hi - 1⟩).getLast? = some CR then .ok (⟨l.lo, l.hi - 2⟩, b)
      else .ok (⟨l.lo, l.hi - 1⟩, b)
    else .ok (l, b)

/-- `ReadString(delim)`: `collectFragments` copies full buffers. -/
def readString (d : UInt8) : Nat → Bytes → MemBuf ρ → Res (Bytes × MemBuf ρ)
  | 0, _, _ => .err .fuel
  | f + 1, acc, b => do
    let ((l, e), b) ← readSlice d (b.mem.length + 2) b
    match e with
    | .found => .ok (acc ++ b.view l, b)
    | .err e => .err e
    | .full => readString d f (acc ++ b.view l) b

/-- `Read(p)` with `len(p) = k > 0`; large reads bypass the buffer. -/
def read (k : Nat) (b : MemBuf ρ) : Res ((Bytes × Option Err) × MemBuf ρ) :=
  if b.r = b.w then
    match b.err with
    | some e => .ok (([], some e), { b with err := none })
    | none =>
      if b.mem.length ≤ k then
        let x := Source.read k b.src
        .ok (x.1, { b with src := x.2 })
      else do
        let ((n, e), b) ← readIn { b with r := 0, w := 0 }
        if n = 0 then .ok (([], e), b)
        else .ok ((b.unread.take k, none), { b with r := b.r + (b.unread.take k).length, err := e })
  else .ok ((b.unread.take k, none), { b with r := b.r + (b.unread.take k).length })

/-- `io.ReadAll`. -/
def readAll : Nat → Bytes → MemBuf ρ → Res (Bytes × MemBuf ρ)
  | 0, _, _ => .err .fuel
  | f + 1, acc, b => do
    let ((x, e), b) ← read (b.room acc.length + 1) b
    match e with
    | some e => if e = .eof then .ok (acc ++ x, b) else .err e
    | none => readAll f (acc ++ x) b

/-- `io.ReadFull` (`io.ReadAtLeast`). -/
def readFull (n : Nat) : Nat → Bytes → MemBuf ρ → Res (Bytes × MemBuf ρ)
  | 0, _, _ => .err .fuel
  | f + 1, acc, b =>
    if n ≤ acc.length then .ok (acc, b)
    else do
      let ((x, e), b) ← read (n - acc.length) b
      let acc := acc ++ x
      match e with
      | some e =>
        if n ≤ acc.length then .ok (acc, b)
        else if 0 < acc.length ∧ e = .eof then .err .unexpectedEof
        else .err e
      | none => readFull n f acc b

/-- `io.Copy(&buf, io.LimitReader(rd, n))`. -/
def readLimited (n : Nat) : Nat → Bytes → MemBuf ρ → Res (Bytes × MemBuf ρ)
  | 0, _, _ => .err .fuel
  | f + 1, acc, b =>
    if n ≤ acc.length then .ok (acc, b)
    else do
      let ((x, e), b) ← read (min (b.room acc.length + 1) (n - acc.length)) b
      match e with
      | some e => if e = .eof then .ok (acc ++ x, b) else .err e
      | none => readLimited n f (acc ++ x) b

/-- Bytes still to come. -/
def left (b : MemBuf ρ) : Nat := (b.w - b.r) + Source.left b.src

/-- Bound on the number of `Read` calls that can still return without error. -/
def calls (b : MemBuf ρ) : Nat := left b * 100 + Source.idle b.src + 2

end MemBuf

instance {ρ : Type} [Source ρ] : LineReader (MemBuf ρ) where
  readString d b := MemBuf.readString d (b.left + 2) [] b
  readLine b := do
    let (l, b) ← MemBuf.readSliceLine b
    .ok (b.view l, b)
  readAll b := MemBuf.readAll b.calls [] b
  readFull n b := MemBuf.readFull n b.calls [] b
  readLimited n b := MemBuf.readLimited n b.calls [] b
  left := MemBuf.left
  readSliceLine := MemBuf.readSliceLine
  view := MemBuf.view

end Verif
