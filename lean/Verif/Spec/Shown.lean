import Verif.Spec.Feed
import Verif.Spec.Taken

/-!
# Specification: what a node shows

The nodes of `Verif.Model.Node` as the nodes that the assemblers in memory are given:
only what their methods return counts, and whether they are of a type of the package.
-/

namespace Verif.Spec

open Calls Handles

mutual

/-- What the methods of the node return, its type left aside. -/
inductive Plain : Node → Nd → Prop where
  | null : Plain .null .null
  | absent : Plain .absent .other
  | text {n : Node} {b : Bytes} : n.kind = .string → n.asString = .ok b → Plain n (.text b)
  | link {n : Node} {l : Link} : n.kind = .link → n.asLink = .ok l → Plain n (.link l)
  | other {n : Node} : n.kind = .bool ∨ n.kind = .int ∨ n.kind = .float ∨ n.kind = .bytes → Plain n .other
  | list {n : Node} {ns : List Node} {ds : Nds} : n.kind = .list → n.listIterator = some ns → OffersAll ns ds →
      Plain n (.list ds)
  | map {n : Node} {es : List (Bytes × Node)} {ds : Ents} : n.kind = .map → n.mapIterator = some es →
      OffersEnts es ds → Plain n (.map ds)

/-- The node as the assemblers see it. Blobs and trees are of no type that they know. -/
inductive Offers : Node → Nd → Prop where
  | own {v : Own} {t : T} {d : Nd} : v.proto = protoOf t → Plain (.own v) d → Offers (.own v) (.own t (valOf v) d)
  | plain {n : Node} {d : Nd} : (∀ v t, n = .own v → v.proto ≠ protoOf t) → Plain n d → Offers n d

inductive OffersAll : List Node → Nds → Prop where
  | nil : OffersAll [] .nil
  | cons {n : Node} {d : Nd} {ns : List Node} {ds : Nds} : Offers n d → OffersAll ns ds →
      OffersAll (n :: ns) (.cons d ds)

inductive OffersEnts : List (Bytes × Node) → Ents → Prop where
  | nil : OffersEnts [] .nil
  | cons {k : Bytes} {n : Node} {d : Nd} {es : List (Bytes × Node)} {ds : Ents} : Offers n d → OffersEnts es ds →
      OffersEnts ((k, n) :: es) (.cons k d ds)

end

/-- A new builder in memory that is given a node, and `Build`. -/
def giveBuild (repr : Bool) (grow : Nat → Nat) (t : T) (d : Nd) : Res Val :=
  match assignNd repr grow d (builder t) with
  | .ok a => build a
  | .err e _ => .err e
  | .panic => .panic
  | .noHandle => .panic

end Verif.Spec
