import Verif.Model.Decode

/-!
# What the decoders print

`DecodeTag` prints lines it does not understand to standard output
(/repo/tag.go:68). No other function of the package prints: the remaining
`fmt.Print` calls are comments (/repo/commit.go:200-201, /repo/unmarshal.go:69).
Here the decoders are modelled a second time with the output as an effect.
Writing to standard output is taken to succeed; `fmt.Println` ignores errors.
-/

namespace Verif

/-- A result together with what was printed before. -/
structure Prints (α : Type) where
  out : Bytes
  res : Res α

/-- A step that prints nothing. -/
def Prints.lift {α : Type} (r : Res α) : Prints α := ⟨[], r⟩

def Prints.bind {α β : Type} (x : Prints α) (f : α → Prints β) : Prints β :=
  match x.res with
  | .ok a => ⟨x.out ++ (f a).out, (f a).res⟩
  | .err e => ⟨x.out, .err e⟩
  | .panic => ⟨x.out, .panic⟩

instance : Monad Prints where
  pure a := .lift (.ok a)
  bind := Prints.bind

/-- `fmt.Println(a, b)` for strings: the operands with a space between them and
a newline. /repo/tag.go:68. -/
def printLn (a b : Bytes) : Prints Unit := ⟨a ++ [SP] ++ b ++ [LF], .ok ()⟩

variable {σ : Type} [Reader σ]

/-- The `switch` in `DecodeTag`, /repo/tag.go:37-69, as `tagLine`, with the output
of its last case. -/
def tagLineOut (out : Tag) (line : Bytes) (s : σ) : Prints (Tag × σ) :=
  if hasPrefix line b!"object " then do
    let h ← .lift (sliceFrom line 7)
    let sha ← .lift (hexDecode h)
    let c ← .lift (shaToCid sha)
    return ({ out with object := .cid c }, s)
  else if hasPrefix line b!"tag " then do
    let x ← .lift (sliceFrom line 4)
    return ({ out with tag := x }, s)
  else if hasPrefix line b!"tagger " then do
    let p ← .lift (parsePersonInfo line)
    return ({ out with tagger := p }, s)
  else if hasPrefix line b!"type " then do
    let x ← .lift (sliceFrom line 5)
    return ({ out with typ := x }, s)
  else if line.length = 0 then do
    let (rest, s) ← .lift (Reader.readAll s)
    return ({ out with message := rest }, s)
  else do
    printLn b!"unhandled line: " line
    return (out, s)

/-- The loop of `DecodeTag`, /repo/tag.go:28-70. -/
def tagLoopOut : Nat → Tag → σ → Prints Tag
  | 0, _, _ => .lift (.err .fuel)
  | fuel + 1, out, s =>
    match Reader.readLine s with
    | .err .eof => .lift (.ok out)
    | .err e => .lift (.err e)
    | .panic => .lift .panic
    | .ok (line, s) => (tagLineOut out line s).bind fun p => tagLoopOut fuel p.1 p.2

/-- `DecodeTag`, /repo/tag.go:20-73. -/
def decodeTagOut (s : σ) : Prints Tag :=
  (Prints.lift (Reader.readString NUL s)).bind fun p => tagLoopOut (Reader.left p.2 + 1) Tag.zero p.2

/-- `ParseObject`, /repo/unmarshal.go:39-75. -/
def parseObjectOut (s : σ) : Prints Obj :=
  (Prints.lift (readType s)).bind fun p =>
    if p.1 = b!"tree" then (Prints.lift (decodeTree p.2)).bind fun t => .lift (.ok (.tree t))
    else if p.1 = b!"commit" then (Prints.lift (decodeCommit p.2)).bind fun c => .lift (.ok (.commit c))
    else if p.1 = b!"blob" then (Prints.lift (decodeBlob p.2)).bind fun b => .lift (.ok (.blob b))
    else if p.1 = b!"tag" then (decodeTagOut p.2).bind fun t => .lift (.ok (.tag t))
    else .lift (.err .badType)

/-- `Decode`, /repo/unmarshal.go:12-36, for an assembler that prints nothing. -/
def decodeOut {β : Type} (na : Sink β) (s : σ) : Prints β :=
  (Prints.lift (readType s)).bind fun p =>
    if p.1 = b!"tree" then (Prints.lift (decodeTree p.2)).bind fun t => .lift (na.assignNode (.tree t))
    else if p.1 = b!"commit" then
      (Prints.lift (decodeCommit p.2)).bind fun c => .lift (na.assignNode (.commit c))
    else if p.1 = b!"blob" then (Prints.lift (decodeBlob p.2)).bind fun b => .lift (na.assignBytes b)
    else if p.1 = b!"tag" then (decodeTagOut p.2).bind fun t => .lift (na.assignNode (.tag t))
    else .lift (.err .badType)

end Verif
