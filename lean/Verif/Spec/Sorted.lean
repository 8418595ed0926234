import Verif.Spec.Objects
import Verif.Spec.Schema
import Verif.Spec.Gen

/-!
# Codecs that do not keep the order of maps

DAG-JSON and DAG-CBOR write the entries of every map sorted by key; what is read
back is the data that was written, with the entries of maps in another order.
-/

namespace Verif.Spec

open Verif

mutual

/-- The same data, with the entries of maps in any order. -/
inductive Shuffled : Data → Data → Prop where
  | str (b : Bytes) : Shuffled (.str b) (.str b)
  | bytes (b : Bytes) : Shuffled (.bytes b) (.bytes b)
  | link (l : Link) : Shuffled (.link l) (.link l)
  | list {ds ds' : List Data} : ShuffledList ds ds' → Shuffled (.list ds) (.list ds')
  | map {es fs es' : List (Bytes × Data)} : es.Perm fs → ShuffledMap fs es' → Shuffled (.map es) (.map es')

/-- Element by element. -/
inductive ShuffledList : List Data → List Data → Prop where
  | nil : ShuffledList [] []
  | cons {d d' : Data} {ds ds' : List Data} : Shuffled d d' → ShuffledList ds ds' → ShuffledList (d :: ds) (d' :: ds')

/-- Entry by entry. -/
inductive ShuffledMap : List (Bytes × Data) → List (Bytes × Data) → Prop where
  | nil : ShuffledMap [] []
  | cons {k : Bytes} {d d' : Data} {es es' : List (Bytes × Data)} :
      Shuffled d d' → ShuffledMap es es' → ShuffledMap ((k, d) :: es) ((k, d') :: es')

end

/-- A strict order in which any two keys can be compared. -/
structure KeyOrder (lt : Bytes → Bytes → Prop) : Prop where
  irrefl : ∀ a, ¬ lt a a
  trans : ∀ a b c, lt a b → lt b c → lt a c
  total : ∀ a b, lt a b ∨ a = b ∨ lt b a

/-- Bytes in order, a prefix before what it begins: the order of DAG-JSON. -/
def bytesLt : Bytes → Bytes → Prop
  | _, [] => False
  | [], _ :: _ => True
  | x :: a, y :: b => x < y ∨ (x = y ∧ bytesLt a b)

/-- The shorter first, else by bytes: the order of DAG-CBOR. -/
def lengthLt (a b : Bytes) : Prop := a.length < b.length ∨ (a.length = b.length ∧ bytesLt a b)

/-- The entry is a directory. -/
def Entry.dir (e : Entry) : Prop := e.mode = b!"40000"

instance (e : Entry) : Decidable e.dir := inferInstanceAs (Decidable (_ = _))

/-- The name by which git sorts an entry: directories as if they ended in a slash
(`base_name_compare` in read-cache.c of git). -/
def Entry.sortName (e : Entry) : Bytes := if e.dir then e.name ++ [0x2f] else e.name

/-- The order of entries in a tree that git writes. -/
def GitSorted (es : List Entry) : Prop := es.Pairwise fun a b => bytesLt a.sortName b.sortName

/-- There is a directory, and a name that begins with its name and goes on with a
byte below the slash: `lib` and `lib.c`. -/
def SlashClash (es : List Entry) : Prop :=
  ∃ d ∈ es, ∃ a ∈ es, d.dir ∧ ∃ c r, a.name = d.name ++ c :: r ∧ c < 0x2f

end Verif.Spec
