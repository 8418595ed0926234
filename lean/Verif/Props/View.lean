import Verif.Model.EncodeNode
import Verif.Props.Build

/-!
# Encoding nodes (C31, C37)

`Encode` as dispatched on nodes, for the package's own types in either view and
for foreign nodes.
-/

namespace Verif.Props

open Verif Spec

/-- The typed node that holds an object. -/
def objNode : Obj → Own
  | .blob b => .blob b
  | .tree t => .tree t
  | .commit c => .commit c
  | .tag t => .tag t

theorem encodeTreeEntries_own (es : List (Bytes × TreeEntry)) :
    encodeTreeEntries (es.map fun r => (r.1, .own (.treeEntry r.2))) = encTreeEntries es := by
  induction es with
  | nil => rfl
  | cons e r ih =>
    obtain ⟨k, e⟩ := e
    show (encodeTreeEntry k (.own (.treeEntry e)) >>= fun a =>
      encodeTreeEntries (r.map _) >>= fun b => .ok (a ++ b)) = _
    rw [ih]
    rfl

theorem encodeTreeEntries_repr (es : List (Bytes × TreeEntry)) :
    encodeTreeEntries (es.map fun r => (r.1, (Own.treeEntry r.2).representation)) =
      encTreeEntries es := by
  induction es with
  | nil => rfl
  | cons e r ih =>
    obtain ⟨k, e⟩ := e
    show (encodeTreeEntry k (.repr (.treeEntry e)) >>= fun a =>
      encodeTreeEntries (r.map _) >>= fun b => .ok (a ++ b)) = _
    rw [ih]
    rfl

theorem encode_tree_own (t : Tree) : encodeBytes (.own (.tree t)) = encTree t := by
  show (encodeTreeEntries (t.t.map _) >>= fun body => .ok (Out.framed b!"tree" body)) >>= _ = _
  rw [encodeTreeEntries_own]
  unfold encTree
  cases encTreeEntries t.t <;> rfl

theorem encode_tree_repr (t : Tree) : encodeBytes (.repr (.tree t)) = encTree t := by
  show (encodeTreeEntries (t.t.map _) >>= fun body => .ok (Out.framed b!"tree" body)) >>= _ = _
  rw [encodeTreeEntries_repr]
  unfold encTree
  cases encTreeEntries t.t <;> rfl

theorem encodeTag_of {n : Node} {t : Tag} {o ty ta me tg : Node}
    (h1 : n.lookup b!"object" = .ok o) (h2 : o.asLink = .ok t.object)
    (h3 : n.lookup b!"type" = .ok ty) (h4 : ty.asString = .ok t.typ)
    (h5 : n.lookup b!"tag" = .ok ta) (h6 : ta.asString = .ok t.tag)
    (h7 : n.lookup b!"message" = .ok me) (h8 : me.asString = .ok t.message)
    (h9 : n.lookup b!"tagger" = .ok tg) (h10 : PersonNode tg t.tagger) :
    (encodeTag n >>= fun o => .ok o.bytes) = encTag t := by
  have hnull : ¬ tg.isNull = true := by
    obtain ⟨es, hes, -⟩ := h10
    intro h
    cases tg <;> first | (cases h; done) | cases hes
  unfold encodeTag encTag
  rw [h1, Res.bind_ok, h2, Res.bind_ok, h3, Res.bind_ok, h4, Res.bind_ok, h5, Res.bind_ok, h6,
    Res.bind_ok, h7, Res.bind_ok, h8, Res.bind_ok, h9]
  unfold encodeTagger
  dsimp only
  rw [if_neg hnull, (build_person _ _).2 h10, Res.bind_ok]
  cases linkSha t.object with
  | err e => rfl
  | panic => rfl
  | ok h =>
    simp only [Res.bind_ok, Out.bytes, List.append_assoc]

theorem encode_tag_own (t : Tag) : encodeBytes (.own (.tag t)) = encTag t :=
  encodeTag_of (n := .own (.tag t)) rfl rfl rfl rfl rfl rfl rfl rfl rfl (own_person t.tagger)

theorem encode_tag_repr (t : Tag) : encodeBytes (.repr (.tag t)) = encTag t :=
  encodeTag_of (n := .repr (.tag t)) rfl rfl rfl rfl rfl rfl rfl rfl rfl (repr_person t.tagger)

theorem encode_commit_own (c : Commit) : encodeBytes (.own (.commit c)) = encCommit c := by
  show (commitBody c >>= fun b => .ok (Out.framed b!"commit" b)) >>= _ = _
  unfold commitBody encCommit
  cases linkSha c.tree <;> try rfl
  cases encParents c.parents <;> try rfl
  cases personOrPanic c.author <;> try rfl
  cases personOrPanic c.committer <;> try rfl
  cases encMergeTags c.mergetag <;> rfl

/-- `Encode` of a typed node is the encoding of the object it holds. -/
theorem encode_typed (o : Obj) : encodeBytes (.own (objNode o)) = encObj o := by
  cases o with
  | blob b => rfl
  | tree t => exact encode_tree_own t
  | commit c => exact encode_commit_own c
  | tag t => exact encode_tag_own t

/-- `Encode` of the representation view of a blob, tree or tag does what `Encode`
of the typed node does: same bytes, same error, same panic. -/
theorem encode_representation_partial (o : Obj) (h : ∀ c, o ≠ .commit c) :
    encodeBytes (objNode o).representation = encodeBytes (.own (objNode o)) := by
  cases o with
  | blob b => rfl
  | tree t => exact (encode_tree_repr t).trans (encode_tree_own t).symm
  | tag t => exact (encode_tag_repr t).trans (encode_tag_own t).symm
  | commit c => exact absurd rfl (h c)

theorem linkSha_not_err (l : Link) (e : Err) : linkSha l ≠ .err e := by
  intro h
  cases l with
  | cid c =>
    simp only [linkSha, cidToSha] at h
    split at h <;> cases h
  | _ => cases h

theorem encParents_not_err (ls : List Link) (e : Err) : encParents ls ≠ .err e := by
  induction ls with
  | nil => intro h; cases h
  | cons l r ih =>
    intro h
    unfold encParents at h
    cases hl : linkSha l with
    | err e' => exact linkSha_not_err _ _ hl
    | panic => rw [hl] at h; cases h
    | ok b =>
      rw [hl, Res.bind_ok] at h
      cases hr : encParents r with
      | err e' => rw [hr] at h; cases h; exact ih hr
      | panic => rw [hr] at h; cases h
      | ok b => rw [hr] at h; cases h

/-- `Encode` of the representation view of a commit panics, whatever the commit:
with an author or committer the builder dereferences nil, and without them the
formatting of the missing author does. -/
theorem encode_representation_commit (c : Commit) : encode (.repr (.commit c)) = .panic := by
  show encodeCommit _ = _
  unfold encodeCommit
  by_cases h : c.author ≠ none ∨ c.committer ≠ none
  · rw [(build_repr_commit_panics h).2]; rfl
  · have h1 : c.author = none := Decidable.not_not.1 fun h' => h (Or.inl h')
    have h2 : c.committer = none := Decidable.not_not.1 fun h' => h (Or.inr h')
    rw [build_repr_commit h1 h2, Res.bind_ok]
    unfold commitBody
    cases hl : linkSha c.tree with
    | err e => exact absurd hl (linkSha_not_err _ _)
    | panic => rfl
    | ok b =>
      rw [Res.bind_ok]
      cases hp : encParents c.parents with
      | err e => exact absurd hp (encParents_not_err _ _)
      | panic => rfl
      | ok b => rw [Res.bind_ok, h1]; rfl

/-- So the two views differ exactly on the commits that can be encoded. -/
theorem encode_representation_iff (o : Obj) :
    encodeBytes (objNode o).representation = encodeBytes (.own (objNode o)) ↔
      ∀ c, o = .commit c → encObj o = .panic := by
  cases o with
  | commit c =>
    have h1 : encodeBytes (objNode (.commit c)).representation = .panic := by
      show encode (.repr (.commit c)) >>= _ = _
      rw [encode_representation_commit]; rfl
    rw [h1, encode_typed]
    exact ⟨fun h _ _ => h.symm, fun h => (h c rfl).symm⟩
  | blob b =>
    exact ⟨(fun _ _ h => by cases h), fun _ => encode_representation_partial _ (fun _ h => by cases h)⟩
  | tree t =>
    exact ⟨(fun _ _ h => by cases h), fun _ => encode_representation_partial _ (fun _ h => by cases h)⟩
  | tag t =>
    exact ⟨(fun _ _ h => by cases h), fun _ => encode_representation_partial _ (fun _ h => by cases h)⟩

/-- The views do differ: an ordinary commit encodes in its typed view only. -/
theorem encode_representation_differs :
    ∃ c b, encodeBytes (.own (.commit c)) = .ok b ∧
      encodeBytes (Own.commit c).representation = .panic := by
  let p : PersonInfo := ⟨b!"A", b!"a@b", b!"1", b!"+0000"⟩
  let c : Commit := ⟨.cid ⟨1, 0x78, List.replicate 22 7⟩, [], b!"m", some p, some p, none, none, [], []⟩
  refine ⟨c, ?_, ?_, ?_⟩
  · exact (match encCommit c with | .ok b => b | _ => [])
  · rw [encode_commit_own]; decide +kernel
  · show encode (.repr (.commit c)) >>= _ = _
    rw [encode_representation_commit]; rfl

end Verif.Props
