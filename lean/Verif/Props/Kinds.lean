import Verif.Spec.Kinds

/-!
# C63: a node answers as its kind says
-/

namespace Verif.Props

open Verif Spec

/-- The methods of a typed node (`repr = false`) or of its representation. -/
def faceOf (repr : Bool) (v : Own) : Face := if repr then v.reprFace else v.face

/-- Every method is refused exactly on the nodes whose kind it makes no sense on,
and the error names the type of the node, the method and the kind the node
reports. -/
theorem refused_by_kind (repr : Bool) (v : Own) (m : Method) :
    (faceOf repr v).refusal m =
      if (faceOf repr v).kind ∈ sensible m then none
      else some ⟨nameOf repr (tyOf v), m, (faceOf repr v).kind⟩ := by
  cases repr <;> cases v <;> cases m <;> rfl

/-- The `AsX` methods give out the value of a scalar, each exactly for the values
of its own sort, and no other value is ever given out. -/
theorem scalars_answer (repr : Bool) (v : Own) :
    (∀ b, (faceOf repr v).asString = .ok b ↔ valueOf v = some (.str b)) ∧
    (∀ b, (faceOf repr v).asBytes = .ok b ↔ valueOf v = some (.bytes b)) ∧
    (∀ l, (faceOf repr v).asLink = .ok l ↔ valueOf v = some (.link l)) ∧
    (∀ x, (faceOf repr v).asBool ≠ .ok x) ∧ (∀ x, (faceOf repr v).asInt ≠ .ok x) ∧
    (∀ x, (faceOf repr v).asFloat ≠ .ok x) := by
  cases repr <;> cases v <;>
    simp [faceOf, Own.face, Own.reprFace, blobFace, stringFace, linkFace, listFace, mapFace,
      valueOf]

/-- Maps have a map iterator, lists a list iterator, and nothing else has either;
the length is that of what the iterator gives and -1 where there is none; no node
is null or absent; both views report the same kind. -/
theorem shape_by_kind (repr : Bool) (v : Own) (n : Node)
    (hn : n = if repr then .repr v else .own v) :
    (faceOf repr v).kind = n.kind ∧
    (faceOf repr v).isNull = false ∧ (faceOf repr v).isAbsent = false ∧
    ((faceOf repr v).mapIterator = true ↔ n.kind = .map) ∧
    ((faceOf repr v).listIterator = true ↔ n.kind = .list) ∧
    (∀ es, n.mapIterator = some es → (faceOf repr v).length = es.length) ∧
    (∀ xs, n.listIterator = some xs → (faceOf repr v).length = xs.length) ∧
    (n.mapIterator = none → n.listIterator = none → (faceOf repr v).length = -1) := by
  subst hn
  cases repr <;> cases v <;>
    simp [faceOf, Own.face, Own.reprFace, blobFace, stringFace, linkFace, listFace, mapFace,
      Node.kind, Own.kind, Node.mapIterator, Node.listIterator, Own.entries, Own.reprEntries,
      Own.elems, Own.reprElems, Own.length, Own.reprLength]
  case true.commit c =>
    cases c.author <;> cases c.committer <;> cases c.encoding <;> cases c.signature <;>
      simp [optEntry]

/-- The lookups of the rest of the model refuse exactly where the methods of the
node refuse, whatever they are asked for. -/
theorem lookups_refused (repr : Bool) (v : Own) :
    ((faceOf repr v).lookupByString.isSome →
      ∀ k, (if repr then v.reprLookup k else v.lookup k) = .err .wrongKind) ∧
    ((faceOf repr v).lookupByNode.isSome →
      ∀ k, (if repr then v.reprLookupNode k else v.lookupNode k) = .err .wrongKind) ∧
    ((faceOf repr v).lookupByIndex.isSome →
      ∀ i, (if repr then v.reprLookupIndex i else v.lookupIndex i) = .err .wrongKind) ∧
    ((faceOf repr v).lookupBySegment.isSome →
      ∀ g, (if repr then v.reprLookupSegment g else v.lookupSegment g) = .err .wrongKind) := by
  cases repr <;> cases v <;> refine ⟨?_, ?_, ?_, ?_⟩ <;> intro h <;>
    first
    | (intro x; rfl)
    | (cases h)

/-- The `AsX` methods that the encoders and assemblers call are these. -/
theorem answers_agree (repr : Bool) (v : Own) (n : Node)
    (hn : n = if repr then .repr v else .own v) :
    (∀ b, n.asString = .ok b ↔ (faceOf repr v).asString = .ok b) ∧
    (∀ b, n.asBytes = .ok b ↔ (faceOf repr v).asBytes = .ok b) ∧
    (∀ l, n.asLink = .ok l ↔ (faceOf repr v).asLink = .ok l) ∧
    (∀ i, n.asInt = .ok i ↔ (faceOf repr v).asInt = .ok i) := by
  subst hn
  cases repr <;> cases v <;>
    simp [faceOf, Own.face, Own.reprFace, blobFace, stringFace, linkFace, listFace, mapFace,
      Node.asString, Node.asBytes, Node.asLink, Node.asInt]

/-- A scalar made by its prototype's `FromX` method is of the type asked for and
gives the value back, through `AsX` and through its own accessor. -/
theorem prototypes_from (b : Bytes) (l : Link) :
    (∃ v, stringFromString b = .ok v ∧ tyOf v = .string ∧ v.face.asString = .ok b ∧
      v.string? = some b) ∧
    (∃ v, gpgSigFromString b = .ok v ∧ tyOf v = .gpgSig ∧ v.face.asString = .ok b ∧
      v.string? = some b) ∧
    (∃ v, blobFromBytes b = .ok v ∧ tyOf v = .blob ∧ v.face.asBytes = .ok b ∧
      v.bytes? = some b) ∧
    (∃ v, linkFromLink l = .ok v ∧ tyOf v = .link ∧ v.face.asLink = .ok l ∧
      v.link? = some l) ∧
    (∃ v, treeLinkFromLink l = .ok v ∧ tyOf v = .treeLink ∧ v.face.asLink = .ok l ∧
      v.link? = some l) ∧
    (∃ v, commitLinkFromLink l = .ok v ∧ tyOf v = .commitLink ∧ v.face.asLink = .ok l ∧
      v.link? = some l) :=
  ⟨⟨_, rfl, rfl, rfl, rfl⟩, ⟨_, rfl, rfl, rfl, rfl⟩, ⟨_, rfl, rfl, rfl, rfl⟩,
    ⟨_, rfl, rfl, rfl, rfl⟩, ⟨_, rfl, rfl, rfl, rfl⟩, ⟨_, rfl, rfl, rfl, rfl⟩⟩

/-- A tree asked for its bytes, in the representation view. -/
example : (faceOf true (.tree ⟨[], []⟩)).asBytes =
    .wrong ⟨b!"ipldgit.Tree.Repr", .asBytes, .map⟩ := rfl

/-- A string asked for its bytes and for its string. -/
example : (faceOf true (.string b!"x")).asBytes =
      .wrong ⟨b!"ipldgit.String", .asBytes, .string⟩ ∧
    (faceOf true (.string b!"x")).asString = .ok b!"x" := ⟨rfl, rfl⟩

end Verif.Props
