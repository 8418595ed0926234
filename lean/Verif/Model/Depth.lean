import Verif.Model.Decode

/-!
# The recursion of `decodeCommitLine`

`decodeCommitLine` calls itself (/repo/commit.go:101) on the line that ended a
merge tag. It is the only function of the package that calls itself, directly or
through others, and Go does not turn this call into a jump: every merge tag that
directly follows another one costs one more frame. The definitions here are those
of `Model/Decode` with room for only `d` frames of `decodeCommitLine`. `Err.fuel`
stands for the fatal error "stack overflow", which ends the process.
-/

namespace Verif

variable {σ : Type} [Reader σ]

/-- The loop of `DecodeCommit`, /repo/commit.go:27-40, with room for `d` frames of
`decodeCommitLine`. -/
def commitLoopIn (d : Nat) : Nat → Commit → σ → Res Commit
  | 0, _, _ => .err .fuel
  | fuel + 1, c, s =>
    match Reader.readLine s with
    | .err .eof => .ok c
    | .err e => .err e
    | .panic => .panic
    | .ok (line, s) => do
      let (c, s) ← commitLine d c line s
      commitLoopIn d fuel c s

/-- `DecodeCommit`, /repo/commit.go:19-43, with room for `d` frames of
`decodeCommitLine`. -/
def decodeCommitIn (d : Nat) (s : σ) : Res Commit := do
  let (_, s) ← readNum s
  commitLoopIn d (Reader.left s + 1) Commit.zero s

/-- `ParseObject`, /repo/unmarshal.go:39-75, with room for `d` frames of
`decodeCommitLine`. -/
def parseObjectIn (d : Nat) (s : σ) : Res Obj := do
  let (typ, s) ← readType s
  if typ = b!"tree" then do
    let t ← decodeTree s
    .ok (.tree t)
  else if typ = b!"commit" then do
    let c ← decodeCommitIn d s
    .ok (.commit c)
  else if typ = b!"blob" then do
    let b ← decodeBlob s
    .ok (.blob b)
  else if typ = b!"tag" then do
    let t ← decodeTag s
    .ok (.tag t)
  else .err .badType

end Verif
