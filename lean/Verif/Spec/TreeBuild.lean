import Verif.Model.TreeHeap

/-!
# What a tree holds after a sequence of entries

Independent of the assembler: the rows in order, and the last value given for a
name.
-/

namespace Verif.Spec

open Verif

/-- The value of the last row with this name. -/
def lastFor (rows : List Row) (k : Bytes) : Option TreeEntry :=
  (rows.reverse.find? (fun r => r.1 = k)).map (·.2)

/-- What a caller adds to a tree: an entry by its name, or a key and then a value.
`ws` are values that are stored first and overwritten. -/
inductive TreeItem where
  | entry (k : Bytes) (ws : List TreeEntry) (e : TreeEntry)
  | keyed (k : Bytes) (ws : List TreeEntry) (e : TreeEntry)

/-- The rows after an item: a name that is there already is refused if it is given
to `AssembleEntry`, and is not refused if it is given to the key assembler. -/
def addItem (rows : List Row) : TreeItem → List Row
  | .entry k _ e => if k ∈ rows.map Prod.fst then rows else rows ++ [(k, e)]
  | .keyed k _ e => rows ++ [(k, e)]

/-- The rows after a list of items. -/
def itemRows (items : List TreeItem) : List Row := items.foldl addItem []

end Verif.Spec
