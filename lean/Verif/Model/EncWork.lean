import Verif.Model.Encode
import Verif.Model.Work

/-!
# How much the encoders copy

The encoders once more, with a count of the bytes that they convert, copy and write,
as in `Verif.Model.Work`. `fmt` puts the text together in a buffer of its own, which
grows as slices do; so does `bytes.Buffer`. The format strings are constants and not
counted, nor is the copy of the struct that `AssignNode` makes for a commit
(/repo/commit.go:166-170).
-/

namespace Verif

/-- `fmt.Sprintf` and the like: the pieces are appended one after the other to a
buffer of capacity `cap`. -/
def fmtW (grow : Nat → Nat → Nat) : List Bytes → Bytes → Nat → Work Bytes
  | [], b, _ => .lift (.ok b)
  | p :: r, b, cap => (pushW grow b.length cap p.length).bind fun cap => fmtW grow r (b ++ p) cap

/-- How the arrays of `fmt` and of `bytes.Buffer` grow. -/
structure Rules where
  fmt : Nat → Nat → Nat
  buf : Nat → Nat → Nat

/-- A `bytes.Buffer`. -/
structure OutBuf where
  bytes : Bytes
  cap : Nat

/-- `fmt.Fprintf(buf, ...)`, `fmt.Fprintln(buf, ...)` and `fmt.Fprint(buf, ...)`. -/
def putW (g : Rules) (ps : List Bytes) (b : OutBuf) : Work OutBuf :=
  (fmtW g.fmt ps [] 0).bind fun x =>
    (pushW g.buf b.bytes.length b.cap x.length).bind fun cap => .lift (.ok ⟨b.bytes ++ x, cap⟩)

/-- `buf.Write(x)`. -/
def rawW (g : Rules) (x : Bytes) (b : OutBuf) : Work OutBuf :=
  (pushW g.buf b.bytes.length b.cap x.length).bind fun cap => .lift (.ok ⟨b.bytes ++ x, cap⟩)

/-- `sha(l)`, /repo/util.go:28-63: `Cid.Hash` copies the CID. -/
def shaW (l : Link) : Work Bytes :=
  .spend (match l with | .cid c => c.hash.length + 2 | _ => 0) (linkSha l)

/-- `hex.EncodeToString`. -/
def hexEncW (h : Bytes) : Work Bytes := .spend (5 * h.length) (.ok (hexEncode h))

/-- `GitString`, /repo/personinfo.go:76-89; the text is copied out of the buffer of
`fmt`. -/
def gitStringW (g : Rules) (p : PersonInfo) : Work Bytes :=
  (fmtW g.fmt ([p.name, [SP, LT], p.email, [GT]]
    ++ (if p.date ≠ [] then [[SP], p.date] else [])
    ++ (if p.timezone ≠ [] then [[SP], p.timezone] else [])) [] 0).bind fun x => .spend x.length (.ok x)

/-- The header and the body are written, /repo/tree.go:95-101, /repo/commit.go:202-208,
/repo/tag.go:186-190. -/
def sendW (g : Rules) (word : Bytes) (b : OutBuf) : Work Bytes :=
  (fmtW g.fmt [word, [SP], decimal b.bytes.length, [NUL]] [] 0).bind fun h =>
    .spend (h.length + b.bytes.length) (.ok (h ++ b.bytes))

/-- `encodeTreeEntry`, /repo/tree.go:104-132. -/
def encTreeEntryW (g : Rules) (name : Bytes) (e : TreeEntry) (b : OutBuf) : Work OutBuf :=
  (putW g [e.mode, [SP], name, [NUL]] b).bind fun b =>
    match e.hash with
    | .cid c => (shaW (.cid c)).bind fun h => rawW g h b
    | _ => .lift .panic

/-- The loop of `encodeTree`, /repo/tree.go:82-94. -/
def encTreeEntriesW (g : Rules) : List (Bytes × TreeEntry) → OutBuf → Work OutBuf
  | [], b => .lift (.ok b)
  | (name, e) :: r, b => (encTreeEntryW g name e b).bind fun b => encTreeEntriesW g r b

/-- `encodeTree`, /repo/tree.go:78-102. -/
def encTreeW (g : Rules) (t : Tree) : Work Bytes :=
  (encTreeEntriesW g t.t ⟨[], 0⟩).bind fun b => sendW g b!"tree" b

/-- A line with a keyword and a reference, /repo/commit.go:174-176, 184, /repo/tag.go:167. -/
def refW (g : Rules) (word : Bytes) (l : Link) (b : OutBuf) : Work OutBuf :=
  (shaW l).bind fun h => (hexEncW h).bind fun x => putW g [word, x, [LF]] b

/-- A line with a keyword and a person, /repo/commit.go:178-179, 187, /repo/tag.go:181. -/
def personW (g : Rules) (word : Bytes) (p : PersonInfo) (tail : Bytes) (b : OutBuf) : Work OutBuf :=
  (gitStringW g p).bind fun x => putW g [word, x, tail] b

/-- `encodeTag`, /repo/tag.go:127-191. -/
def encTagW (g : Rules) (t : Tag) : Work Bytes :=
  (refW g b!"object " t.object ⟨[], 0⟩).bind fun b =>
    (putW g [b!"type ", t.typ, [LF]] b).bind fun b =>
      (putW g [b!"tag ", t.tag, [LF]] b).bind fun b =>
        (personW g b!"tagger " t.tagger [LF] b).bind fun b =>
          (putW g (if t.message ≠ [] then [[LF], t.message] else []) b).bind fun b => sendW g b!"tag" b

/-- Parent lines, /repo/commit.go:175-177. -/
def encParentsW (g : Rules) : List Link → OutBuf → Work OutBuf
  | [], b => .lift (.ok b)
  | p :: r, b => (refW g b!"parent " p b).bind fun b => encParentsW g r b

/-- Merge tag, /repo/commit.go:183-189. -/
def encMergeTagW (g : Rules) (t : Tag) (b : OutBuf) : Work OutBuf :=
  (refW g b!"mergetag object " t.object b).bind fun b =>
    (putW g [b!" type ", t.typ, [LF]] b).bind fun b =>
      (putW g [b!" tag ", t.tag, [LF]] b).bind fun b =>
        (personW g b!" tagger " t.tagger b!"\n \n" b).bind fun b => putW g [t.message] b

/-- Loop over merge tags, /repo/commit.go:183-189. -/
def encMergeTagsW (g : Rules) : List Tag → OutBuf → Work OutBuf
  | [], b => .lift (.ok b)
  | t :: r, b => (encMergeTagW g t b).bind fun b => encMergeTagsW g r b

/-- A person that may be missing, /repo/commit.go:178-179. -/
def someoneW (g : Rules) (word : Bytes) (p : Option PersonInfo) (b : OutBuf) : Work OutBuf :=
  match p with
  | none => .lift .panic
  | some p => personW g word p [LF] b

/-- Other lines, /repo/commit.go:195-197. -/
def encOtherW (g : Rules) : List Bytes → OutBuf → Work OutBuf
  | [], b => .lift (.ok b)
  | l :: r, b => (putW g [l, [LF]] b).bind fun b => encOtherW g r b

/-- Encoding, /repo/commit.go:180-182. -/
def encodingPieces : Option Bytes → List Bytes
  | some e => [b!"encoding ", e, [LF]]
  | none => []

/-- Signature, /repo/commit.go:190-194. -/
def encSigW (g : Rules) : Option Bytes → OutBuf → Work OutBuf
  | some x, b =>
    (putW g [b!"gpgsig -----BEGIN PGP SIGNATURE-----", [LF]] b).bind fun b =>
      (putW g [x] b).bind fun b => putW g [b!" -----END PGP SIGNATURE-----", [LF]] b
  | none, b => .lift (.ok b)

/-- `encodeCommit`, /repo/commit.go:165-209. -/
def encCommitW (g : Rules) (c : Commit) : Work Bytes :=
  (refW g b!"tree " c.tree ⟨[], 0⟩).bind fun b =>
    (encParentsW g c.parents b).bind fun b =>
      (someoneW g b!"author " c.author b).bind fun b =>
        (someoneW g b!"committer " c.committer b).bind fun b =>
          (putW g (encodingPieces c.encoding) b).bind fun b =>
            (encMergeTagsW g c.mergetag b).bind fun b =>
              (encSigW g c.signature b).bind fun b =>
                (encOtherW g c.other b).bind fun b =>
                  (putW g [[LF], c.message] b).bind fun b => sendW g b!"commit" b

/-- `Encode`, /repo/marshal.go:11-51. A blob is written as it is, /repo/blob.go:46-54. -/
def encObjW (g : Rules) : Obj → Work Bytes
  | .blob b => .spend b.length (.ok b)
  | .tree t => encTreeW g t
  | .commit c => encCommitW g c
  | .tag t => encTagW g t

end Verif
