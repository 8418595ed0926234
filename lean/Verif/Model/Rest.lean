import Verif.Model.Decode

/-!
# What a decoder leaves of the reader

`DecodeBlob`, `DecodeTree`, `DecodeCommit` and `DecodeTag` are given a
`*bufio.Reader`, and `bufio.NewReader` of `Decode` and `ParseObject`
(/repo/unmarshal.go:13,40) returns a `*bufio.Reader` with a buffer of the usual
size as it is. So a caller can go on reading where a decoder has stopped.
-/

namespace Verif

variable {σ : Type} [Reader σ]

/-- `DecodeBlob` as in `decodeBlob`, with the reader as it is then,
/repo/blob.go:13-44. -/
def decodeBlobRest (s : σ) : Res (Bytes × σ) := do
  let (sizen, s) ← readNum s
  if sizen < 0 then .err .negSize
  else do
    let pre := b!"blob " ++ decimal sizen.toNat ++ [NUL]
    let (body, s) ← Reader.readLimited sizen.toNat s
    if body.length ≠ sizen.toNat then
      if body.length = 0 then .err .eof else .err .unexpectedEof
    else .ok (pre ++ body, s)

/-- `ParseObject`, with the reader as it is then, /repo/unmarshal.go:39-75. `none`: it
is at its end, since the other decoders go on until they are told EOF
(/repo/tree.go:25-31, /repo/commit.go:25-50, /repo/tag.go:17-60). -/
def parseRest (s : σ) : Res (Obj × Option σ) := do
  let (typ, s) ← readType s
  if typ = b!"tree" then do
    let t ← decodeTree s
    .ok (.tree t, none)
  else if typ = b!"commit" then do
    let c ← decodeCommit s
    .ok (.commit c, none)
  else if typ = b!"blob" then do
    let (b, s) ← decodeBlobRest s
    .ok (.blob b, some s)
  else if typ = b!"tag" then do
    let t ← decodeTag s
    .ok (.tag t, none)
  else .err .badType

/-- `ParseObject` `n` times with the same reader. At the end of the stream there is no
type word, /repo/unmarshal.go:42-45. -/
def parseSeq : Nat → σ → Res (List Obj × Option σ)
  | 0, s => .ok ([], some s)
  | n + 1, s => do
    let (o, r) ← parseRest s
    match r with
    | some s => do
      let (os, r) ← parseSeq n s
      .ok (o :: os, r)
    | none => if n = 0 then .ok ([o], none) else .err .unexpectedEof

end Verif
