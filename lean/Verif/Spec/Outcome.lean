import Verif.Spec.Objects
import Verif.Spec.Taken

/-!
# What is wrong with a map that is to be encoded
-/

namespace Verif.Spec

open Verif

/-- The value at the first entry with the key. -/
def firstAt (es : List (Bytes × Node)) (k : Bytes) : Option Node := (es.find? (·.1 = k)).map (·.2)

/-- What is wrong with an entry that has to be there and of this kind. -/
def entryFault (es : List (Bytes × Node)) (k : Bytes) (kind : Kind) : Option Err :=
  match firstAt es k with
  | none => some .notExists
  | some v => if v.kind = kind then none else some .wrongKind

/-- The first thing that is wrong with the entries of a tag, apart from the tagger. -/
def tagFault (es : List (Bytes × Node)) : Option Err :=
  (entryFault es b!"object" .link).or <| (entryFault es b!"type" .string).or <|
    (entryFault es b!"tag" .string).or (entryFault es b!"message" .string)

/-- The CID has too few bytes to end in a SHA-1. -/
def TooShort (l : Link) : Prop := ∃ c, l = .cid c ∧ c.hash.length < 20

/-- The object of the tag is a link to nothing that could be written. -/
def ShortObject (es : List (Bytes × Node)) : Prop :=
  ∃ o l, firstAt es b!"object" = some o ∧ o.asLink = .ok l ∧ TooShort l

/-- A commit that cannot be written: author or committer is missing, or a link is too short. -/
def Unwritable (c : Commit) : Prop :=
  c.author = none ∨ c.committer = none ∨ TooShort c.tree ∨ (∃ l ∈ c.parents, TooShort l) ∨
    ∃ t ∈ c.mergetag, TooShort t.object

/-- A tree that cannot be written: a link is no CID, or too short. -/
def BadRows (t : Tree) : Prop := ∃ r ∈ t.t, ∀ c, r.2.hash = .cid c → c.hash.length < 20

/-- The value of the package that Encode cannot write. -/
def ObjUnwritable : Obj → Prop
  | .blob _ => False
  | .tree t => BadRows t
  | .tag t => TooShort t.object
  | .commit c => Unwritable c

end Verif.Spec
