import Verif.Model.Types

/-!
# Person lines (`/repo/personinfo.go`)
-/

namespace Verif

/-- `bytes.Split(line, []byte{' '})`, /repo/personinfo.go:10. Never empty. -/
def splitSp : Bytes → List Bytes
  | [] => [[]]
  | c :: cs =>
    if c = SP then [] :: splitSp cs
    else match splitSp cs with
      | p :: ps => (c :: p) :: ps
      | [] => [[c]]

/-- The name loop, /repo/personinfo.go:22-37. The first argument is
`parts[at:]`; returns the accumulated name and `parts[at:]` at the break. -/
def nameLoop : List Bytes → Bytes → Res (Bytes × List Bytes)
  | [], _ => .err .badPerson
  | part :: rest, name =>
    if part.length ≠ 0 then do
      let c ← first part
      if c = LT then .ok (name, part :: rest)
      else nameLoop rest (name ++ (part ++ [SP]))
    else if name.length > 0 then nameLoop rest (name ++ [SP])
    else nameLoop rest name

/-- The email loop, /repo/personinfo.go:42-61. -/
def emailLoop : List Bytes → Bytes → Res (Bytes × List Bytes)
  | [], _ => .err .badPerson
  | part :: rest, email => do
    -- `if len(part) > 0 && part[0] == '<' { part = part[1:] }`
    let part ←
      (if part.length > 0 then do
        let c ← first part
        if c = LT then sliceFrom part 1 else .ok part
      else .ok part)
    -- `if len(part) > 0 && part[len(part)-1] == '>' { ...; break }`
    if part.length > 0 then do
      let c ← last part
      if c = GT then do
        let p ← chop part
        .ok (email ++ p, rest)
      else emailLoop rest (email ++ (part ++ [SP]))
    else emailLoop rest (email ++ (part ++ [SP]))

/-- Date and timezone, /repo/personinfo.go:64-73: `parts[at]` and `parts[at+1]`
if they exist, anything further is dropped. -/
def personRest (name email : Bytes) : List Bytes → PersonInfo
  | [] => { name, email, date := [], timezone := [] }
  | [date] => { name, email, date, timezone := [] }
  | date :: timezone :: _ => { name, email, date, timezone }

/-- `parsePersonInfo`, /repo/personinfo.go:9-74. -/
def parsePersonInfo (line : Bytes) : Res PersonInfo := do
  let parts := splitSp line
  if parts.length < 3 then .err .badPerson
  else do
    -- `at := 1`
    let (name, rest) ← nameLoop (parts.drop 1) []
    let name ← (if name.length ≠ 0 then chop name else .ok [])
    let (email, rest) ← emailLoop rest []
    .ok (personRest name email rest)

/-- `GitString`, /repo/personinfo.go:76-89. -/
def gitString (p : PersonInfo) : Bytes :=
  p.name ++ [SP, LT] ++ p.email ++ [GT]
    ++ (if p.date ≠ [] then SP :: p.date else [])
    ++ (if p.timezone ≠ [] then SP :: p.timezone else [])

end Verif
