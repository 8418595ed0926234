import Verif.Spec.Gen
import Verif.Spec.Graph
import Verif.Spec.Accept
import Verif.Model.Select

/-!
# What objects refer to
-/

namespace Verif.Spec

open Verif

mutual
/-- The links in plain data, in order. -/
def dataLinks : Data → List Link
  | .link l => [l]
  | .list ds => listLinksOf ds
  | .map es => mapLinksOf es
  | .str _ | .bytes _ | .absent => []
/-- Those of a list. -/
def listLinksOf : List Data → List Link
  | [] => []
  | d :: ds => dataLinks d ++ listLinksOf ds
/-- Those of a map. -/
def mapLinksOf : List (Bytes × Data) → List Link
  | [] => []
  | (_, d) :: es => dataLinks d ++ mapLinksOf es
end

/-- `SelectLinks` of the node returns these links, with any stack that is large
enough. -/
def Selects (n : Node) (ls : List Link) : Prop := ∃ f₀, ∀ f, f₀ ≤ f → selectLinks f n = .ok ls

/-- The links of an object, in the order in which they are found. -/
def objLinks : Obj → List Link
  | .blob _ => []
  | .tree t => t.t.map (·.2.hash)
  | .commit c => c.tree :: (c.parents ++ c.mergetag.map (·.object))
  | .tag t => [t.object]

/-- The objects that an object refers to, in the order of the schema. -/
def GitObj.refs : GitObj → List Bytes
  | .blob _ => []
  | .tree es => es.map (·.sha)
  | .commit is _ => (treeRefs is).getLast?.toList ++ parentRefs is ++ mergeRefs is
  | .tag is _ => (objectRefs is).getLast?.toList

/-- An object refers to another, over any number of objects of the repository. -/
inductive Reaches (R : Bytes → Option GitObj) : Bytes → Bytes → Prop
  | here (a : Bytes) : Reaches R a a
  | step (a b c : Bytes) (o : GitObj) (h : R a = some o) (hb : b ∈ o.refs) (hr : Reaches R b c) : Reaches R a c

/-- What a client reaches that loads what a link names, selects its links, and
goes on with each. -/
inductive Followed (L : LinkSys) (pol : TreeAsm → Nat) : Link → Link → Prop
  | here (a : Link) : Followed L pol a a
  | step (a b c : Link) (n : Node) (ls : List Link) (h : L.load pol a none = .ok n) (hs : Selects n ls)
      (hb : b ∈ ls) (hr : Followed L pol b c) : Followed L pol a c

end Verif.Spec
