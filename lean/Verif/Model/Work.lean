import Verif.Model.Decode

/-!
# How much the decoders copy

The decoders once more, with a count of the bytes that they read, convert and copy.
Counted are: the bytes of every line or string that is read; those of every
conversion of bytes to a string and of every concatenation (all its operands); the
bytes written to a `strings.Builder` and the elements appended to a slice, and, when
there is no room, all those that are moved to the new array. `grow cap need` is the
capacity of the new array, which the runtime chooses. Library functions
(`hex.DecodeString`, `bytes.Split`, `io.ReadAll`, `io.ReadFull`, `io.Copy`, `mh.Encode`)
are counted with the lengths of what they get and return, an operation on a Go map
with the length of its key. What `bufio.Reader` moves within its buffer and the texts
of errors are not counted.
-/

namespace Verif

/-- A result together with the work done before. -/
structure Work (α : Type) where
  cost : Nat
  res : Res α

namespace Work

/-- A step that is not counted. -/
def lift {α : Type} (r : Res α) : Work α := ⟨0, r⟩

/-- A step that costs `n`. -/
def spend {α : Type} (n : Nat) (r : Res α) : Work α := ⟨n, r⟩

def bind {α β : Type} (x : Work α) (f : α → Work β) : Work β :=
  match x.res with
  | .ok a => ⟨x.cost + (f a).cost, (f a).res⟩
  | .err e => ⟨x.cost, .err e⟩
  | .panic => ⟨x.cost, .panic⟩

end Work

/-- `append` of `k` elements to a slice of length `len` and capacity `cap`: the new
capacity. E.g. /repo/commit.go:70, 98, 119 and `strings.Builder.WriteString` in
/repo/commit.go:138, 157, /repo/tag.go:120, /repo/personinfo.go:57, 60. -/
def pushW (grow : Nat → Nat → Nat) (len cap k : Nat) : Work Nat :=
  if len + k ≤ cap then .spend k (.ok cap) else .spend (len + k) (.ok (grow cap (len + k)))

variable {σ : Type} [Reader σ]

/-- `ReadLine`. -/
def lineW (s : σ) : Work (Bytes × σ) :=
  .spend (match Reader.readLine s with | .ok (l, _) => l.length + 1 | _ => 1) (Reader.readLine s)

/-- `ReadString`. Without a delimiter it reads all that is left. -/
def stringW (d : UInt8) (s : σ) : Work (Bytes × σ) :=
  .spend (match Reader.readString d s with | .ok (l, _) => l.length | _ => Reader.left s + 1)
    (Reader.readString d s)

/-- `io.ReadAll` and the conversion to a string. -/
def allW (s : σ) : Work (Bytes × σ) :=
  .spend (match Reader.readAll s with | .ok (l, _) => 2 * l.length + 1 | _ => Reader.left s + 1)
    (Reader.readAll s)

/-- `hex.DecodeString(string(h))`. -/
def hexW (h : Bytes) : Work Bytes := .spend (2 * h.length) (hexDecode h)

/-- `shaToCid`, /repo/util.go:17-26. -/
def cidW (sha : Bytes) : Work Cid := .spend sha.length (shaToCid sha)

/-- `string(line[n:])`. -/
def tailW (line : Bytes) (n : Nat) : Work Bytes := .spend (line.length - n) (sliceFrom line n)

/-! ## Persons -/

/-- The name loop, /repo/personinfo.go:22-37: every concatenation copies the name. -/
def nameLoopW : List Bytes → Bytes → Work (Bytes × List Bytes)
  | [], _ => .lift (.err .badPerson)
  | part :: rest, name =>
    if part.length ≠ 0 then
      (Work.lift (first part)).bind fun c =>
        if c = LT then .lift (.ok (name, part :: rest))
        else (Work.spend (name.length + (part.length + 1)) (.ok (name ++ (part ++ [SP])))).bind
          fun n => nameLoopW rest n
    else if name.length > 0 then
      (Work.spend (name.length + 1) (.ok (name ++ [SP]))).bind fun n => nameLoopW rest n
    else (Work.spend 1 (.ok name)).bind fun n => nameLoopW rest n

/-- The email loop, /repo/personinfo.go:42-61; `cap` is the capacity of the builder. -/
def emailLoopW (grow : Nat → Nat → Nat) :
    List Bytes → Bytes → Nat → Work (Bytes × List Bytes)
  | [], _, _ => .lift (.err .badPerson)
  | part :: rest, email, cap =>
    (Work.lift
      (if part.length > 0 then do
        let c ← first part
        if c = LT then sliceFrom part 1 else .ok part
      else .ok part)).bind fun part =>
    if part.length > 0 then
      (Work.lift (last part)).bind fun c =>
        if c = GT then
          (Work.spend part.length (chop part)).bind fun p =>
            (pushW grow email.length cap p.length).bind fun _ => .lift (.ok (email ++ p, rest))
        else
          (Work.spend (part.length + 1) (.ok (part ++ [SP]))).bind fun x =>
            (pushW grow email.length cap x.length).bind fun cap =>
              emailLoopW grow rest (email ++ x) cap
    else
      (Work.spend (part.length + 1) (.ok (part ++ [SP]))).bind fun x =>
        (pushW grow email.length cap x.length).bind fun cap =>
          emailLoopW grow rest (email ++ x) cap

/-- `parsePersonInfo`, /repo/personinfo.go:9-74. -/
def parsePersonInfoW (grow : Nat → Nat → Nat) (line : Bytes) : Work PersonInfo :=
  (Work.spend (2 * line.length + 1) (.ok (splitSp line))).bind fun parts =>
    if parts.length < 3 then .lift (.err .badPerson)
    else
      (nameLoopW (parts.drop 1) []).bind fun p =>
        (Work.lift (if p.1.length ≠ 0 then chop p.1 else .ok [])).bind fun name =>
          (emailLoopW grow p.2 [] 0).bind fun q =>
            .spend ((personRest name q.1 q.2).date.length + (personRest name q.1 q.2).timezone.length)
              (.ok (personRest name q.1 q.2))

/-! ## Blobs and trees -/

/-- `readNullTerminatedNumber`, /repo/helper.go:45-53. -/
def readNumW (s : σ) : Work (Int × σ) :=
  (stringW NUL s).bind fun p =>
    (Work.lift (chop p.1)).bind fun l =>
      (Work.spend l.length (atoi l)).bind fun n => .lift (.ok (n, p.2))

/-- `DecodeBlob`, /repo/blob.go:13-44. -/
def decodeBlobW (s : σ) : Work Bytes :=
  (readNumW s).bind fun p =>
    if p.1 < 0 then .lift (.err .negSize)
    else
      (Work.spend (b!"blob " ++ decimal p.1.toNat ++ [NUL]).length
        (.ok (b!"blob " ++ decimal p.1.toNat ++ [NUL]))).bind fun pre =>
      (Work.spend
        (match Reader.readLimited p.1.toNat p.2 with | .ok (l, _) => l.length | _ => Reader.left p.2)
        (Reader.readLimited p.1.toNat p.2)).bind fun q =>
        if q.1.length ≠ p.1.toNat then
          if q.1.length = 0 then .lift (.err .eof) else .lift (.err .unexpectedEof)
        else .lift (.ok (pre ++ q.1))

/-- `DecodeTreeEntry`, /repo/tree.go:47-76. -/
def decodeTreeEntryW (s : σ) : Work ((Bytes × TreeEntry) × σ) :=
  (stringW SP s).bind fun p =>
    (Work.lift (chop p.1)).bind fun data =>
      (stringW NUL p.2).bind fun q =>
        (Work.lift (chop q.1)).bind fun name =>
          (Work.spend (match Reader.readFull 20 q.2 with | .ok _ => 20 | _ => Reader.left q.2)
            (Reader.readFull 20 q.2)).bind fun r =>
            (cidW r.1).bind fun c => .lift (.ok ((name, { mode := data, hash := .cid c }), r.2))

/-- The loop of `DecodeTree`, /repo/tree.go:24-39; `cap` is the capacity of the table.
The name is looked up in the map and put into it. -/
def treeLoopW (grow : Nat → Nat → Nat) : Nat → Tree → Nat → σ → Work Tree
  | 0, _, _, _ => .lift (.err .fuel)
  | fuel + 1, t, cap, s =>
    match (decodeTreeEntryW s).res with
    | .err .eof => .spend (decodeTreeEntryW s).cost (.ok t)
    | .err e => .spend (decodeTreeEntryW s).cost (.err e)
    | .panic => .spend (decodeTreeEntryW s).cost .panic
    | .ok ((name, e), s') =>
      (Work.spend ((decodeTreeEntryW s).cost + 2 * name.length) (treeAdd t name e)).bind fun t' =>
        (pushW grow t.t.length cap 1).bind fun cap => treeLoopW grow fuel t' cap s'

/-- `DecodeTree`, /repo/tree.go:14-44. -/
def decodeTreeW (grow : Nat → Nat → Nat) (s : σ) : Work Tree :=
  (readNumW s).bind fun p => treeLoopW grow (Reader.left p.2 + 1) { m := [], t := [] } 0 p.2

/-! ## Tags -/

/-- The `switch` in `DecodeTag`, /repo/tag.go:37-69. -/
def tagLineW (grow : Nat → Nat → Nat) (out : Tag) (line : Bytes) (s : σ) : Work (Tag × σ) :=
  if hasPrefix line b!"object " then
    (Work.lift (sliceFrom line 7)).bind fun h => (hexW h).bind fun sha => (cidW sha).bind fun c =>
      .lift (.ok ({ out with object := .cid c }, s))
  else if hasPrefix line b!"tag " then
    (tailW line 4).bind fun x => .lift (.ok ({ out with tag := x }, s))
  else if hasPrefix line b!"tagger " then
    (parsePersonInfoW grow line).bind fun p => .lift (.ok ({ out with tagger := p }, s))
  else if hasPrefix line b!"type " then
    (tailW line 5).bind fun x => .lift (.ok ({ out with typ := x }, s))
  else if line.length = 0 then
    (allW s).bind fun p => .lift (.ok ({ out with message := p.1 }, p.2))
  else .spend line.length (.ok (out, s))

/-- The loop of `DecodeTag`, /repo/tag.go:28-70. -/
def tagLoopW (grow : Nat → Nat → Nat) : Nat → Tag → σ → Work Tag
  | 0, _, _ => .lift (.err .fuel)
  | fuel + 1, out, s =>
    match (lineW s).res with
    | .err .eof => .spend (lineW s).cost (.ok out)
    | .err e => .spend (lineW s).cost (.err e)
    | .panic => .spend (lineW s).cost .panic
    | .ok (line, s') =>
      (Work.spend (lineW s).cost (.ok ())).bind fun _ =>
        (tagLineW grow out line s').bind fun p => tagLoopW grow fuel p.1 p.2

/-- `DecodeTag`, /repo/tag.go:20-73. -/
def decodeTagW (grow : Nat → Nat → Nat) (s : σ) : Work Tag :=
  (stringW NUL s).bind fun p => tagLoopW grow (Reader.left p.2 + 1) Tag.zero p.2

/-- The message loop of `readMergeTag`, /repo/tag.go:107-121; `cap` is the capacity of
the builder. -/
def mergeMsgLoopW (grow : Nat → Nat → Nat) :
    Nat → Bytes → Nat → σ → Work ((Bytes × Bytes) × σ)
  | 0, _, _, _ => .lift (.err .fuel)
  | fuel + 1, msg, cap, s =>
    (lineW s).bind fun p =>
      if ¬ hasPrefix p.1 b!" " then .lift (.ok ((msg, p.1), p.2))
      else
        (Work.spend (p.1.length + 1) (.ok (p.1 ++ [LF]))).bind fun x =>
          (pushW grow msg.length cap x.length).bind fun cap =>
            mergeMsgLoopW grow fuel (msg ++ x) cap p.2

/-- The outer loop of `readMergeTag`, /repo/tag.go:84-124. -/
def mergeTagLoopW (grow : Nat → Nat → Nat) : Nat → Tag → σ → Work ((Tag × Option Bytes) × σ)
  | 0, _, _ => .lift (.err .fuel)
  | fuel + 1, out, s =>
    match (lineW s).res with
    | .err .eof => .spend (lineW s).cost (.ok ((out, none), s))
    | .err e => .spend (lineW s).cost (.err e)
    | .panic => .spend (lineW s).cost .panic
    | .ok (line, s') =>
      (Work.spend (lineW s).cost (.ok ())).bind fun _ =>
        if hasPrefix line b!" type " then
          (tailW line 6).bind fun x => mergeTagLoopW grow fuel { out with typ := x } s'
        else if hasPrefix line b!" tag " then
          (tailW line 5).bind fun x => mergeTagLoopW grow fuel { out with tag := x } s'
        else if hasPrefix line b!" tagger " then
          (Work.lift (sliceFrom line 1)).bind fun l =>
            (parsePersonInfoW grow l).bind fun p => mergeTagLoopW grow fuel { out with tagger := p } s'
        else if line = b!" " then
          (mergeMsgLoopW grow (Reader.left s' + 1) [] 0 s').bind fun p =>
            .lift (.ok (({ out with message := p.1.1 }, some p.1.2), p.2))
        else mergeTagLoopW grow fuel out s'

/-- `readMergeTag`, /repo/tag.go:76-125. -/
def readMergeTagW (grow : Nat → Nat → Nat) (hash : Bytes) (s : σ) :
    Work ((Tag × Option Bytes) × σ) :=
  (cidW hash).bind fun c =>
    mergeTagLoopW grow (Reader.left s + 1) { Tag.zero with object := .cid c } s

/-! ## Commits -/

/-- The loop of `decodeGpgSig`, /repo/commit.go:147-159; `cap` is the capacity of the
builder. -/
def sigLoopW (grow : Nat → Nat → Nat) : Nat → Bytes → Nat → σ → Work (Bytes × σ)
  | 0, _, _, _ => .lift (.err .fuel)
  | fuel + 1, sig, cap, s =>
    (lineW s).bind fun p =>
      if p.1 = b!" -----END PGP SIGNATURE-----" then .lift (.ok (sig, p.2))
      else
        (Work.spend (p.1.length + 1) (.ok (p.1 ++ [LF]))).bind fun x =>
          (pushW grow sig.length cap x.length).bind fun cap =>
            sigLoopW grow fuel (sig ++ x) cap p.2

/-- `decodeGpgSig`, /repo/commit.go:125-163. -/
def decodeGpgSigW (grow : Nat → Nat → Nat) (s : σ) : Work (Bytes × σ) :=
  (lineW s).bind fun p =>
    (Work.spend (p.1.length + 1)
      (if p.1 ≠ b!" " then
        if hasPrefix p.1 b!" Version: " || hasPrefix p.1 b!" Comment: " then .ok (p.1 ++ [LF])
        else .err .badSig
      else .ok b!" \n")).bind fun sig =>
      (pushW grow 0 0 sig.length).bind fun cap =>
        sigLoopW grow (Reader.left p.2 + 1) sig cap p.2

/-- Capacities of the slices of a commit that is being read. -/
structure Room where
  parents : Nat
  mergetag : Nat
  other : Nat

/-- `decodeCommitLine`, /repo/commit.go:45-123. -/
def commitLineW (grow : Nat → Nat → Nat) :
    Nat → Commit → Room → Bytes → σ → Work ((Commit × Room) × σ)
  | 0, _, _, _, _ => .lift (.err .fuel)
  | fuel + 1, c, m, line, s =>
    if hasPrefix line b!"tree " then
      (Work.lift (sliceFrom line 5)).bind fun h => (hexW h).bind fun sha => (cidW sha).bind fun cid =>
        .lift (.ok (({ c with tree := .cid cid }, m), s))
    else if hasPrefix line b!"parent " then
      (Work.lift (sliceFrom line 7)).bind fun h => (hexW h).bind fun sha => (cidW sha).bind fun cid =>
        (pushW grow c.parents.length m.parents 1).bind fun cap =>
          .lift (.ok (({ c with parents := c.parents ++ [.cid cid] }, { m with parents := cap }), s))
    else if hasPrefix line b!"author " then
      (parsePersonInfoW grow line).bind fun p => .lift (.ok (({ c with author := some p }, m), s))
    else if hasPrefix line b!"committer " then
      (parsePersonInfoW grow line).bind fun p => .lift (.ok (({ c with committer := some p }, m), s))
    else if hasPrefix line b!"encoding " then
      (tailW line 9).bind fun x => .lift (.ok (({ c with encoding := some x }, m), s))
    else if hasPrefix line b!"mergetag object " then
      (Work.spend line.length (sliceFrom line 16)).bind fun h => (hexW h).bind fun sha =>
        (readMergeTagW grow sha s).bind fun p =>
          (pushW grow c.mergetag.length m.mergetag 1).bind fun cap =>
            match p.1.2 with
            | none => .lift (.ok (({ c with mergetag := c.mergetag ++ [p.1.1] },
                { m with mergetag := cap }), p.2))
            | some l => commitLineW grow fuel { c with mergetag := c.mergetag ++ [p.1.1] }
                { m with mergetag := cap } l p.2
    else if hasPrefix line b!"gpgsig " then
      (decodeGpgSigW grow s).bind fun p => .lift (.ok (({ c with signature := some p.1 }, m), p.2))
    else if line.length = 0 then
      (allW s).bind fun p => .lift (.ok (({ c with message := p.1 }, m), p.2))
    else
      (Work.spend line.length (.ok line)).bind fun x =>
        (pushW grow c.other.length m.other 1).bind fun cap =>
          .lift (.ok (({ c with other := c.other ++ [x] }, { m with other := cap }), s))

/-- The loop of `DecodeCommit`, /repo/commit.go:27-40. -/
def commitLoopW (grow : Nat → Nat → Nat) : Nat → Commit → Room → σ → Work Commit
  | 0, _, _, _ => .lift (.err .fuel)
  | fuel + 1, c, m, s =>
    match (lineW s).res with
    | .err .eof => .spend (lineW s).cost (.ok c)
    | .err e => .spend (lineW s).cost (.err e)
    | .panic => .spend (lineW s).cost .panic
    | .ok (line, s') =>
      (Work.spend (lineW s).cost (.ok ())).bind fun _ =>
        (commitLineW grow (Reader.left s' + 1) c m line s').bind fun p =>
          commitLoopW grow fuel p.1.1 p.1.2 p.2

/-- `DecodeCommit`, /repo/commit.go:19-43. -/
def decodeCommitW (grow : Nat → Nat → Nat) (s : σ) : Work Commit :=
  (readNumW s).bind fun p => commitLoopW grow (Reader.left p.2 + 1) Commit.zero ⟨0, 0, 0⟩ p.2

/-- The type word, /repo/unmarshal.go:42-49. -/
def typeW (s : σ) : Work (Bytes × σ) :=
  .spend (match readType s with | .ok (l, _) => l.length + 1 | _ => Reader.left s + 1) (readType s)

/-- `ParseObject`, /repo/unmarshal.go:39-75. -/
def parseObjectW (grow : Nat → Nat → Nat) (s : σ) : Work Obj :=
  (typeW s).bind fun p =>
    if p.1 = b!"tree" then (decodeTreeW grow p.2).bind fun t => .lift (.ok (.tree t))
    else if p.1 = b!"commit" then (decodeCommitW grow p.2).bind fun c => .lift (.ok (.commit c))
    else if p.1 = b!"blob" then (decodeBlobW p.2).bind fun b => .lift (.ok (.blob b))
    else if p.1 = b!"tag" then (decodeTagW grow p.2).bind fun t => .lift (.ok (.tag t))
    else .lift (.err .badType)

end Verif
