import Verif.Spec.Build
import Verif.Spec.TreeBuild
import Verif.Model.Lookup

/-!
# Editing data at the end of a path

What it is to change one place of a piece of data, in terms of the node interface
only: the same entries or elements in the same order, with another node at the end of
the path. What the changed data denotes is in `Verif.Spec.Build`.
-/

namespace Verif.Spec

open Verif

/-- The same keys in the same order; values under `key` are changed as `R` says, the
others are the same. -/
def Swap (R : Option Node → Node → Prop) (key : Bytes) :
    List (Bytes × Node) → List (Bytes × Node) → Prop
  | [], [] => True
  | (k, v) :: r, (k', v') :: r' =>
    k' = k ∧ (if k = key then R (some v) v' else v' = v) ∧ Swap R key r r'
  | _, _ => False

/-- The entries of a map after a change under `key`: a new key comes last. -/
def EditMap (R : Option Node → Node → Prop) (key : Bytes) (es es' : List (Bytes × Node)) : Prop :=
  if key ∈ es.map Prod.fst then Swap R key es es'
  else ∃ v', R none v' ∧ es' = es ++ [(key, v')]

/-- The elements of a list after a change at position `i`, which may be the one after
the last. -/
def EditList (R : Option Node → Node → Prop) (i : Nat) (ns ns' : List Node) : Prop :=
  (∃ pre v post v', ns = pre ++ v :: post ∧ pre.length = i ∧ R (some v) v' ∧
    ns' = pre ++ v' :: post) ∨
  (i = ns.length ∧ ∃ v', R none v' ∧ ns' = ns ++ [v'])

/-- The position that a path segment means in a list of `len` elements: the end for
`-` and for negative numbers. -/
def ListPlace (g : Seg) (len i : Nat) : Prop :=
  (g.string = b!"-" ∧ i = len) ∨
  (g.string ≠ b!"-" ∧ ∃ z, g.index = .ok z ∧
    ((z < 0 ∧ i = len) ∨ (z = (i : Int) ∧ i ≤ len)))

/-- The second node is the first one with the node at the end of the path changed by
`fn`. Without a node (`none`) there are no longer paths than the empty one. -/
def Edited (fn : Option Node → Res Node) : List Seg → Option Node → Node → Prop
  | [], n, n' => fn n = .ok n'
  | _ :: _, none, _ => False
  | g :: p, some n, n' =>
    (∃ es es', n.mapIterator = some es ∧ EditMap (Edited fn p) g.string es es' ∧ n' = .map es') ∨
    (∃ ns ns' i, n.listIterator = some ns ∧ ListPlace g ns.length i ∧
      EditList (Edited fn p) i ns ns' ∧ n' = .list ns')

/-- The node denotes this value of the package, for all types but trees and
commits. -/
def Means (n : Node) : Own → Prop
  | .blob b => n.kind = .bytes ∧ n.asBytes = .ok b
  | .string b | .gpgSig b => StrNode n b
  | .link l | .treeLink l | .commitLink l => LinkNode n l
  | .linkList ls => ListNode LinkNode n ls
  | .stringList ls => ListNode StrNode n ls
  | .tagList ts => ListNode TagNode n ts
  | .person p => PersonNode n p
  | .treeEntry e => TreeEntryNode n e
  | .tag t => TagNode n t
  | .tree _ | .commit _ => False

/-- The values have the same type. -/
def SameType : Own → Own → Prop
  | .blob _, .blob _ | .string _, .string _ | .gpgSig _, .gpgSig _ | .link _, .link _
  | .treeLink _, .treeLink _ | .commitLink _, .commitLink _ | .linkList _, .linkList _
  | .stringList _, .stringList _ | .tagList _, .tagList _ | .person _, .person _
  | .treeEntry _, .treeEntry _ | .tag _, .tag _ | .tree _, .tree _
  | .commit _, .commit _ => True
  | _, _ => False

/-- The node is a map whose entries denote these rows of a tree, in order. -/
def RowsNode (n : Node) (rows : List Row) : Prop :=
  ∃ es, n.mapIterator = some es ∧ es.map Prod.fst = rows.map Prod.fst ∧
    Each TreeEntryNode (es.map Prod.snd) (rows.map Prod.snd)

/-- What the assembler of a commit asks of the edited data beyond the schema: that no
value is `ipld.Absent`, and that author and committer are typed persons, unless the
path leads into them. -/
def CommitExtra (path : List Seg) (n : Node) : Prop :=
  ∀ es, n.mapIterator = some es →
    (∀ k v, (k, v) ∈ es → v ≠ .absent) ∧
    ∀ k v, (k = b!"author" ∨ k = b!"committer") → (k, v) ∈ es →
      (∃ p, v = .own (.person p)) ∨ ∃ g s r, path = g :: s :: r ∧ g.string = k

end Verif.Spec
