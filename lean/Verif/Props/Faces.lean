import Verif.Spec.Faces
import Verif.Model.Calls
import Verif.Props.TreeHeap
import Verif.Props.Build

/-!
# C67: an assembler takes what its type says
# C68: a node can be copied through its prototype
-/

namespace Verif.Props

open Verif Spec

/-- The methods of the assembler in a builder of a type (`repr = false`) or of its
representation. -/
def asmOf (repr : Bool) (p : Proto) : AsmFace := if repr then p.reprAsm else p.asm

/-- Every method other than `AssignNode` is refused exactly by the assemblers of
types of another kind; the error names the type, the method and the type's kind. -/
theorem asm_refused (repr : Bool) (p : Proto) (m : AsmMethod) (k : Kind) (hm : m ≠ .assignNode) :
    (asmOf repr p).refusal k m =
      if stores m = some (madeBy p).kind then none
      else some ⟨asmName repr (madeBy p) m, m, (madeBy p).kind⟩ := by
  cases repr <;> cases p <;> cases m <;> first | rfl | exact absurd rfl hm

/-- `AssignNode` refuses, by itself, exactly the nodes of another kind than a list or
map type has; the error names the type and the kind of the node. -/
theorem asm_node_refused (repr : Bool) (p : Proto) (k : Kind) :
    (asmOf repr p).refusal k .assignNode =
      if (madeBy p).isScalar = true ∨ k = (madeBy p).kind then none
      else some ⟨asmName repr (madeBy p) .assignNode, .assignNode, k⟩ := by
  cases repr <;> cases p <;> cases k <;> rfl

/-- The key assemblers exist for exactly the types of maps, and take strings only.
The error of a struct's key assembler names it; trees use the assembler of strings. -/
theorem key_asm_refused (repr : Bool) (p : Proto) :
    ((p.keyAsm repr).isSome ↔ (madeBy p).kind = .map) ∧
    ∀ f, p.keyAsm repr = some f →
      IsProto false .string f.prototype ∧
      ∀ m k, f.refusal k m =
        if m = .assignNode ∨ stores m = some .string then none
        else some ⟨if (madeBy p).isStruct then nameOf repr (madeBy p) ++ b!".KeyAssembler"
          else nameOf false .string, m, .string⟩ := by
  refine ⟨by cases p <;> simp [Proto.keyAsm, madeBy, Ty.kind], ?_⟩
  intro f hf
  cases repr <;> cases p <;> first
    | (cases hf; done)
    | (cases hf; refine ⟨⟨rfl, rfl⟩, ?_⟩; intro m k; cases m <;> rfl)

/-- The type behind one of the call by call models. -/
def protoOf : Calls.T → Proto
  | .string => .string
  | .gpgSig => .gpgSig
  | .link => .link
  | .treeLink => .treeLink
  | .commitLink => .commitLink
  | .linkList => .linkList
  | .stringList => .stringList
  | .tagList => .tagList
  | .person => .person
  | .treeEntry => .treeEntry
  | .tag => .tag
  | .commit => .commit

/-- A method that an assembler refuses, it refuses in every state, and nothing
changes; a method that it does not refuse returns no error, in any state. Only
`AssignNull` panics instead of returning its error, when something has been
assigned or begun. -/
theorem refused_in_every_state (a : Calls.Frame) (repr : Bool) (b : Bytes) (l : Link) (h : Int) :
    let f := asmOf repr (protoOf a.ty)
    (a.call .beginMap = .err .wrongKind a ↔ f.beginMap.isSome) ∧
    (a.call (.beginList h) = .err .wrongKind a ↔ f.beginList.isSome) ∧
    (a.call (.assignString b) = .err .wrongKind a ↔ f.assignString.isSome) ∧
    (a.call (.assignLink l) = .err .wrongKind a ↔ f.assignLink.isSome) ∧
    (a.call .assignOther = .err .wrongKind a ∧ f.assignBool.isSome ∧ f.assignInt.isSome ∧
      f.assignFloat.isSome ∧ f.assignBytes.isSome) ∧
    (f.beginMap = none → ∀ e a', a.call .beginMap ≠ .err e a') ∧
    (f.beginList = none → ∀ e a', a.call (.beginList h) ≠ .err e a') ∧
    (f.assignString = none → ∀ e a', a.call (.assignString b) ≠ .err e a') ∧
    (f.assignLink = none → ∀ e a', a.call (.assignLink l) ≠ .err e a') ∧
    f.assignNull.isSome ∧
    a.call .assignNull = if a.m = .absent then .err .wrongKind a else .panic := by
  obtain ⟨t, w, m, bg, ph, s, fi, c⟩ := a
  cases repr <;> cases t <;>
    simp [asmOf, protoOf, Calls.Frame.ty, Proto.asm, Proto.reprAsm, stringAsm, linkAsm, listAsm,
      mapAsm, Calls.Frame.call, Calls.beginMap, Calls.beginList, Calls.assignString,
      Calls.assignLink, Calls.assignNull, Calls.T.shape] <;>
    split <;> simp

/-- What a fresh builder's `AssignNode` and `AssignBytes` refuse by kind: every node
of another kind than the type's, whatever it is, and bytes unless the type is one of
bytes. -/
theorem other_kinds_refused (pol : TreeAsm → Nat) (p : Proto) (n : Node) (b : Bytes)
    (repr : Bool) :
    (n.kind ≠ (madeBy p).kind → p.assignNode pol n = .err .wrongKind) ∧
    (((asmOf repr p).assignNode n.kind).isSome → p.assignNode pol n = .err .wrongKind) ∧
    ((asmOf repr p).assignBytes.isSome ↔ p.assignBytes b = .err .wrongKind) := by
  have key : n.kind ≠ (madeBy p).kind → p.assignNode pol n = .err .wrongKind := by
    intro hk
    cases p <;> cases n <;> first
      | rfl
      | exact absurd rfl hk
      | (rename_i v; cases v <;> first | rfl | exact absurd rfl hk)
  refine ⟨key, ?_, ?_⟩
  · intro hs
    apply key
    intro hk
    have := asm_node_refused repr p n.kind
    rw [if_pos (Or.inr hk)] at this
    change (asmOf repr p).assignNode n.kind = none at this
    rw [this] at hs
    cases hs
  · cases repr <;> cases p <;> simp [asmOf, Proto.asm, Proto.reprAsm, blobAsm, stringAsm, linkAsm,
      listAsm, mapAsm, Proto.assignBytes]

/-! ## Prototypes -/

/-- Nodes, their representations and the assemblers of their builders all name the
prototype of their own type and view. -/
theorem prototypes (repr : Bool) (v : Own) (p : Proto) :
    IsProto false (tyOf v) v.prototype ∧ IsProto true (tyOf v) v.reprPrototype ∧
    (∃ r, v.representation.prototype = some r ∧ IsProto true (tyOf v) r) ∧
    IsProto repr (madeBy p) (asmOf repr p).prototype ∧
    IsProto true (madeBy p) (reprProto p) := by
  refine ⟨by cases v <;> exact ⟨rfl, rfl⟩, by cases v <;> exact ⟨rfl, rfl⟩, ?_,
    by cases repr <;> cases p <;> exact ⟨rfl, rfl⟩, by cases p <;> exact ⟨rfl, rfl⟩⟩
  cases v <;> exact ⟨_, rfl, rfl, rfl⟩

/-- The key prototype is that of strings, for exactly the types of maps. The value
prototype is that of the elements, for lists and trees; structs panic instead. -/
theorem child_prototypes (r : ProtoRef) :
    ((keyPrototype r).isSome ↔ (madeBy r.ty).kind = .map) ∧
    (∀ q, keyPrototype r = some q → IsProto r.repr .string q) ∧
    (valuePrototype r = some .panic ↔ (madeBy r.ty).isStruct = true) ∧
    (∀ q, valuePrototype r = some (.ok q) →
      ∃ t, (madeBy r.ty).elem = some t ∧ IsProto r.repr t q) ∧
    ((∃ q, valuePrototype r = some (.ok q)) ↔ (madeBy r.ty).elem.isSome) := by
  obtain ⟨b, p⟩ := r
  cases b <;> cases p <;>
    simp [keyPrototype, valuePrototype, madeBy, Ty.kind, Ty.elem, Ty.isStruct, IsProto, reprProto,
      Ty.isScalar]

/-- What the value prototype promises is what iteration gives. -/
theorem values_have_value_prototype (n : Node) (r q : ProtoRef) (hr : n.prototype = some r)
    (hq : valuePrototype r = some (.ok q)) :
    (∀ es, n.mapIterator = some es → ∀ kv ∈ es, kv.2.prototype = some q) ∧
    (∀ xs, n.listIterator = some xs → ∀ x ∈ xs, x.prototype = some q) := by
  cases n with
  | own v =>
    cases v <;> cases hr <;> cases hq <;>
      simp [Node.mapIterator, Node.listIterator, Own.entries, Own.elems, Own.kind] <;>
      intros <;> subst_vars <;> rfl
  | repr v =>
    cases v <;> cases hr <;> cases hq <;>
      simp [Node.mapIterator, Node.listIterator, Own.reprEntries, Own.reprElems, Own.kind] <;>
      intros <;> subst_vars <;> rfl
  | _ => cases hr

/-! ## Copying -/

/-- Assigning a node to a builder from its own prototype gives the same value. -/
theorem copy_typed (pol : TreeAsm → Nat) (v : Own) : v.prototype.copy pol (.own v) = .ok v := by
  cases v <;> rfl

/-- Every value that a builder gives out is of the builder's type, and a typed node
whichever the view of the builder. -/
theorem copy_type (pol : TreeAsm → Nat) (r : ProtoRef) (n : Node) (v : Own)
    (h : r.copy pol n = .ok v) : tyOf v = madeBy r.ty := by
  obtain ⟨b, p⟩ := r
  cases p <;>
    · unfold ProtoRef.copy Proto.assignNode at h
      obtain ⟨x, -, hx⟩ := Res.bind_eq_ok.1 h
      cases hx
      rfl

/-- The values whose representation the builders cannot take: commits with an author
or a committer, and trees with an entry. -/
def NoCopy : Own → Prop
  | .commit c => c.author ≠ none ∨ c.committer ≠ none
  | .tree t => t.t ≠ []
  | _ => False

/-- Assigning the representation of a node to a builder from the prototype of the
representation gives the same value, except for commits with people and trees with
entries, where it panics. (A tree without entries has nothing to look up.) -/
theorem copy_repr (pol : TreeAsm → Nat) (v : Own) (hv : ∀ t, v = .tree t → t.t = [] → t.m = []) :
    (NoCopy v → v.reprPrototype.copy pol v.representation = .panic) ∧
    (¬ NoCopy v → v.reprPrototype.copy pol v.representation = .ok v) := by
  cases v with
  | commit c =>
    refine ⟨fun h => ?_, fun h => ?_⟩
    · show (buildCommit (.repr (.commit c)) >>= _) = _
      rw [(build_repr_commit_panics h).2]; rfl
    · show (buildCommit (.repr (.commit c)) >>= _) = _
      rw [build_repr_commit (Classical.byContradiction fun g => h (Or.inl g))
        (Classical.byContradiction fun g => h (Or.inr g))]
      rfl
  | tree t =>
    refine ⟨fun h => ?_, fun h => ?_⟩
    · show (assignTree pol (.repr (.tree t)) >>= _) = _
      show ((match TreeAsm.fresh.assignNode pol (.repr (.tree t)) with
        | .ok s => Res.ok s.built
        | .err e _ => .err e
        | .panic => .panic) >>= _) = _
      rw [tree_assign_map_panics pol _ _ rfl (fun g => h (by simpa [Own.reprEntries] using g))]
      rfl
    · have ht : t.t = [] := Classical.byContradiction h
      have hm := hv t rfl ht
      obtain ⟨m, tt⟩ := t
      cases ht
      cases hm
      rfl
  | linkList l =>
    refine ⟨fun h => h.elim, fun _ => ?_⟩
    show (assignLinkList [] (.repr (.linkList l)) >>= _) = _
    rw [(assignLinkList_ok _ _).2 (repr_linkList l)]; rfl
  | stringList l =>
    refine ⟨fun h => h.elim, fun _ => ?_⟩
    show (assignStringList [] (.repr (.stringList l)) >>= _) = _
    rw [(assignStringList_ok _ _).2 (repr_stringList l)]; rfl
  | tagList l =>
    refine ⟨fun h => h.elim, fun _ => ?_⟩
    show (assignTagList [] (.repr (.tagList l)) >>= _) = _
    rw [(assignTagList_ok _ _).2 (repr_tagList l)]; rfl
  | person p =>
    refine ⟨fun h => h.elim, fun _ => ?_⟩
    show (buildPerson (.repr (.person p)) >>= _) = _
    rw [(build_repr p ⟨[], .nil⟩ .zero).1]; rfl
  | treeEntry e =>
    refine ⟨fun h => h.elim, fun _ => ?_⟩
    show (buildTreeEntry (.repr (.treeEntry e)) >>= _) = _
    rw [(build_repr .zero e .zero).2.1]; rfl
  | tag t =>
    refine ⟨fun h => h.elim, fun _ => ?_⟩
    show (buildTag (.repr (.tag t)) >>= _) = _
    rw [(build_repr .zero ⟨[], .nil⟩ t).2.2]; rfl
  | _ => exact ⟨fun h => h.elim, fun _ => rfl⟩

/-! ## Concrete cases -/

/-- A commit's assembler asked to take null, in both views, and a string list's asked
to begin a map. -/
example : (asmOf false .commit).refusal .null .assignNull =
      some ⟨b!"ipldgit.Commit", .assignNull, .map⟩ ∧
    (asmOf true .commit).refusal .null .assignNull =
      some ⟨b!"ipldgit.Commit.Repr.Repr", .assignNull, .map⟩ ∧
    (asmOf true .stringList).refusal .null .beginMap =
      some ⟨b!"ipldgit.String_List.Repr", .beginMap, .list⟩ ∧
    (asmOf true .stringList).refusal .null .beginList = none := ⟨rfl, rfl, rfl, rfl⟩

/-- A list of one string promises strings and holds one. -/
example : (Node.own (.stringList [b!"a"])).prototype = some ⟨false, .stringList⟩ ∧
    valuePrototype ⟨false, .stringList⟩ = some (.ok ⟨false, .string⟩) ∧
    (Node.own (.stringList [b!"a"])).listIterator = some [.own (.string b!"a")] :=
  ⟨rfl, rfl, rfl⟩

/-- A finished builder that is asked for a map answers its error and one that is
asked for null panics. -/
example : (Calls.Frame.mk .string (.text b!"x") .value false .initial 0 0 none).call .beginMap =
      .err .wrongKind (.mk .string (.text b!"x") .value false .initial 0 0 none) ∧
    (Calls.Frame.mk .string (.text b!"x") .value false .initial 0 0 none).call .assignNull =
      .panic := ⟨rfl, rfl⟩

/-- A tree with an entry cannot be copied through its representation, a commit
without people can. -/
example : NoCopy (.tree ⟨[(b!"a", ⟨b!"100644", .nil⟩)], [(b!"a", ⟨b!"100644", .nil⟩)]⟩) ∧
    ¬ NoCopy (.commit .zero) :=
  ⟨(fun h => by cases h), fun h => h.elim (fun g => g rfl) (fun g => g rfl)⟩

end Verif.Props
