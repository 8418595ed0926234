import Verif.Spec.Accept

/-!
# Objects of repositories with SHA-256

Git can name objects by hashes of 32 bytes (`extensions.objectFormat`). In commits and
tags they are texts of 64 digits, in trees 32 bytes.
-/

namespace Verif.Spec

/-- An entry of such a tree; the hash in two parts, twenty bytes and twelve. -/
structure Wide where
  mode : Bytes
  name : Bytes
  head : Bytes
  tail : Bytes

def Wide.text (w : Wide) : Bytes := w.mode ++ SP :: (w.name ++ NUL :: (w.head ++ w.tail))

/-- What git writes. -/
structure Wide.Ok (w : Wide) : Prop where
  mode : SP ∉ w.mode
  name : NUL ∉ w.name
  head : w.head.length = 20
  tail : w.tail.length = 12

/-- The body of such a tree. -/
def wideBody (ws : List Wide) : Bytes := ws.flatMap Wide.text

/-- The entries with each hash cut to twenty bytes, and the rest of it, `p` for the
first, before the next mode. -/
def shifted (p : Bytes) : List Wide → List Entry
  | [] => []
  | w :: ws => ⟨p ++ w.mode, w.name, w.head⟩ :: shifted w.tail ws

/-- The rest of the last hash. -/
def lastTail (ws : List Wide) : Bytes := (ws.getLast?.map Wide.tail).getD []

/-- A reference of 64 digits. -/
def WideRef (x hash : Bytes) : Prop := HexOf x hash ∧ hash.length = 32

end Verif.Spec
