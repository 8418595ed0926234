import Verif.Model.Graph

/-!
# `traversal.SelectLinks`

How a client of go-ipld-prime finds the links of a node, for pinning and for
fetching what a node refers to: `SelectLinks` goes through maps and lists with
their iterators and collects the links in the order in which it meets them.
Modelled from the documentation, as far as it uses the nodes of the package.
-/

namespace Verif

/-- One node after the other. -/
def collect (f : Node → Res (List Link)) : List Node → Res (List Link)
  | [] => .ok []
  | n :: ns => do
    let a ← f n
    let b ← collect f ns
    .ok (a ++ b)

/-- `SelectLinks(n)`. The fuel bounds the depth; a nil iterator makes it panic. -/
def selectLinks : Nat → Node → Res (List Link)
  | 0, _ => .err .fuel
  | f + 1, n =>
    match n.kind with
    | .map =>
      match n.mapIterator with
      | some es => collect (selectLinks f) (es.map Prod.snd)
      | none => .panic
    | .list =>
      match n.listIterator with
      | some ns => collect (selectLinks f) ns
      | none => .panic
    | .link => do
      let l ← n.asLink
      .ok [l]
    | _ => .ok []

end Verif
