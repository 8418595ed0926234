import Verif.Model.Basicnode
import Verif.Props.Robust
import Verif.Props.View
import Verif.Props.Gen
import Verif.Props.DeepEqual

/-!
# C93: decoding into nodes that are not of the package
-/

namespace Verif.Props

open Verif Spec

/-- What a builder of any kind of node builds of an object. -/
def anyNode : Obj → Node
  | .blob b => .bytes b
  | o => .own o.own

/-- Decoding into `basicnode.Prototype.Any`: exactly the objects that `ParseObject`
accepts, with the same errors; equal to its nodes; and encoded like them. -/
theorem decode_any (s : Stream) : decode Basic.any.sink s = parseObject s >>= fun o => .ok (anyNode o) := by
  rw [decode_parse]
  congr 1
  funext o
  cases o <;> rfl

theorem any_encode (o : Obj) : encodeBytes (anyNode o) = encObj o := by
  cases o with
  | blob b => rfl
  | tree t => exact encode_typed (.tree t)
  | commit c => exact encode_typed (.commit c)
  | tag t => exact encode_typed (.tag t)

/-- The entries that a map builder copies. -/
def copied (skip : Bool) (es : List (Bytes × Node)) : List (Bytes × Node) :=
  es.filter fun e => !(skip && e.2.isAbsent)

theorem entryGet_none {es : List (Bytes × Node)} {k : Bytes} (h : k ∉ es.map Prod.fst) : entryGet es k = none := by
  induction es with
  | nil => rfl
  | cons e es ih =>
    obtain ⟨k', v⟩ := e
    rw [List.map_cons, List.mem_cons, not_or] at h
    rw [entryGet, if_neg (fun hk => h.1 hk.symm), ih h.2]

theorem copyEntries_ok (skip : Bool) (acc es : List (Bytes × Node)) (h : ((acc ++ es).map Prod.fst).Nodup) :
    copyEntries skip acc es = .ok (acc ++ copied skip es) := by
  induction es generalizing acc with
  | nil => simp [copyEntries, copied]
  | cons e es ih =>
    obtain ⟨k, v⟩ := e
    have hsub : ((acc ++ es).map Prod.fst).Nodup := by
      refine List.Nodup.sublist ?_ h
      exact List.Sublist.map _ (List.Sublist.append_left (List.sublist_cons_self _ _) _)
    rw [copyEntries]
    by_cases hs : (skip && v.isAbsent) = true
    · rw [if_pos hs, ih acc hsub, copied, copied, List.filter_cons, if_neg (by simp [hs])]
    · rw [if_neg hs]
      have hk : k ∉ acc.map Prod.fst := by
        rw [List.map_append, List.nodup_append] at h
        intro hk
        exact h.2.2 k hk k (List.mem_cons_self ..) rfl
      rw [entryGet_none hk, ih _ (by simpa using h), copied, copied, List.filter_cons,
        if_pos (by rw [Bool.not_eq_true] at hs; rw [hs]; rfl), List.append_assoc]
      rfl

/-- A tag that was copied into a map is encoded like the tag. -/
theorem tag_copy (skip : Bool) (t : Tag) : encodeBytes (.map (copied skip (Own.tag t).entries)) = encTag t := by
  cases skip
  · exact encodeTag_of (n := .map (Own.tag t).entries) rfl rfl rfl rfl rfl rfl rfl rfl rfl (own_person t.tagger)
  · exact encodeTag_of (n := .map (Own.tag t).entries) rfl rfl rfl rfl rfl rfl rfl rfl rfl (own_person t.tagger)

theorem build_map (es : List (Bytes × Node)) : buildCommit (.map es) = commitStruct.run es Commit.zero 0 := by
  show commitStruct.child (some Commit.zero) _ = _
  rw [commitStruct.child_some]
  rfl

theorem encode_built (n : Node) (c : Commit) (h : buildCommit n = .ok c) :
    (do let o ← encodeCommit n; Res.ok o.bytes) = encCommit c := by
  rw [← encode_commit_own c]
  show _ = (do let o ← encodeCommit (.own (.commit c)); Res.ok o.bytes)
  rw [encodeCommit, encodeCommit, h]
  rfl

/-- So is a commit, if absent values are left out. -/
theorem commit_copy (c : Commit) : encodeBytes (.map (copied true (Own.commit c).entries)) = encCommit c := by
  refine encode_built (.map (copied true (Own.commit c).entries)) c ?_
  rw [build_map]
  obtain ⟨tree, parents, message, author, committer, encoding, signature, mergetag, other⟩ := c
  cases author <;> cases committer <;> cases encoding <;> cases signature <;> rfl

/-- If they are copied, only a commit that has all its optional fields is: any other
is refused. -/
theorem commit_copy_absent (c : Commit) :
    (Full c → encodeBytes (.map (copied false (Own.commit c).entries)) = encCommit c) ∧
    (¬ Full c → encodeBytes (.map (copied false (Own.commit c).entries)) = .err .wrongKind) := by
  constructor
  · rintro ⟨h1, h2, h3, h4⟩
    refine encode_built (.map (copied false (Own.commit c).entries)) c ?_
    rw [build_map]
    obtain ⟨tree, parents, message, author, committer, encoding, signature, mergetag, other⟩ := c
    cases author <;> cases committer <;> cases encoding <;> cases signature <;> first | contradiction | rfl
  · intro h
    show (do let o ← encodeCommit (.map (copied false (Own.commit c).entries)); Res.ok o.bytes) = _
    rw [encodeCommit, build_map]
    obtain ⟨tree, parents, message, author, committer, encoding, signature, mergetag, other⟩ := c
    cases author <;> cases committer <;> cases encoding <;> cases signature <;> first
      | rfl
      | exact absurd ⟨by simp, by simp, by simp, by simp⟩ h

theorem treeEntry_asLink (e : TreeEntry) : (Node.own (.treeEntry e)).asLink = .err .wrongKind := rfl

/-- A tree that was copied into a map is always refused. -/
theorem tree_copy (skip : Bool) (t : Tree) : ∃ e, encodeBytes (.map (copied skip (Own.tree t).entries)) = .err e := by
  have hc : copied skip (Own.tree t).entries = t.t.map fun r => (r.1, .own (.treeEntry r.2)) := by
    rw [copied, List.filter_eq_self.2]
    · rfl
    · intro e he
      simp only [Own.entries, List.mem_map] at he
      obtain ⟨r, _, rfl⟩ := he
      cases skip <;> rfl
  rw [hc]
  cases t.t with
  | nil => exact ⟨.iterOver, rfl⟩
  | cons r rs =>
    obtain ⟨k, e⟩ := r
    show ∃ x, (do
      let o ← (if k = b!"object" ∨ k = b!"type" ∨ k = b!"tag" ∨ k = b!"tagger" ∨ k = b!"text" then
          encodeTag (.map (((k, e) :: rs).map fun (r : Bytes × TreeEntry) => (r.1, .own (.treeEntry r.2))))
        else encodeCommit (.map (((k, e) :: rs).map fun (r : Bytes × TreeEntry) => (r.1, .own (.treeEntry r.2)))))
      Res.ok o.bytes) = .err x
    split
    · have : ∀ es : List (Bytes × TreeEntry), ∃ x,
          (do let o ← encodeTag (.map (es.map fun (r : Bytes × TreeEntry) => (r.1, .own (.treeEntry r.2)))); Res.ok o.bytes) = .err x := by
        intro es
        rw [encodeTag, Node.lookup]
        have hg : ∀ es : List (Bytes × TreeEntry),
            entryGet (es.map fun r => (r.1, Node.own (.treeEntry r.2))) b!"object" = none ∨
            ∃ e, entryGet (es.map fun r => (r.1, Node.own (.treeEntry r.2))) b!"object" = some (.own (.treeEntry e)) := by
          intro es
          induction es with
          | nil => exact .inl rfl
          | cons r rs ih =>
            rw [List.map_cons, entryGet]
            split
            · exact .inr ⟨_, rfl⟩
            · exact ih
        rcases hg es with h | ⟨e, h⟩
        · rw [h]; exact ⟨_, rfl⟩
        · rw [h]; exact ⟨_, rfl⟩
      exact this ((k, e) :: rs)
    · rename_i hk
      by_cases h1 : k = b!"tree"
      · subst h1; exact ⟨_, rfl⟩
      by_cases h2 : k = b!"parents"
      · subst h2; exact ⟨_, rfl⟩
      by_cases h3 : k = b!"message"
      · subst h3; exact ⟨_, rfl⟩
      by_cases h4 : k = b!"author"
      · subst h4; exact ⟨_, rfl⟩
      by_cases h5 : k = b!"committer"
      · subst h5; exact ⟨_, rfl⟩
      by_cases h6 : k = b!"encoding"
      · subst h6; exact ⟨_, rfl⟩
      by_cases h7 : k = b!"signature"
      · subst h7; exact ⟨_, rfl⟩
      by_cases h8 : k = b!"mergetag"
      · subst h8; exact ⟨_, rfl⟩
      by_cases h9 : k = b!"other"
      · subst h9; exact ⟨_, rfl⟩
      refine ⟨.invalidKey, ?_⟩
      have hf : commitStruct.find k = none := by
        simp [Struct.find, commitStruct, List.findIdx?_cons, Ne.symm h1, Ne.symm h2, Ne.symm h3, Ne.symm h4,
          Ne.symm h5, Ne.symm h6, Ne.symm h7, Ne.symm h8, Ne.symm h9]
      have hb : ∀ v es, buildCommit (.map ((k, v) :: es)) = .err .invalidKey := by
        intro v es
        rw [build_map, Struct.run, hf]
      rw [encodeCommit, List.map_cons, hb]
      rfl

/-- Decoding into a map: trees, commits and tags, entry for entry; blobs are refused.
An object that `ParseObject` refuses is refused in the same way. -/
theorem decode_map (skip : Bool) (s : Stream) :
    (∀ o, parseObject s = .ok o → (∀ b, o ≠ .blob b) →
      decode (Basic.map skip).sink s = .ok (.map (copied skip o.own.entries))) ∧
    (∀ b, parseObject s = .ok (.blob b) → decode (Basic.map skip).sink s = .err .wrongKind) ∧
    (∀ e, parseObject s = .err e → decode (Basic.map skip).sink s = .err e) := by
  refine ⟨fun o h ho => ?_, fun b h => ?_, fun e h => ?_⟩
  · rw [decode_parse, h, Res.bind_ok]
    have hn : (o.own.entries.map Prod.fst).Nodup := by
      cases o with
      | blob b => exact absurd rfl (ho b)
      | tree t =>
        obtain ⟨rows, h1, _, h3, _⟩ := tree_lookup_iteration s t h
        have h1 := h1 (treeLength t) (Nat.le_refl _)
        have h4 := treeItr_run t (treeLength t) 0 (by simp [treeLength])
        have hrows : rows = t.t := by
          rw [show treeIterator t = ⟨t, 0⟩ from rfl, h4] at h1
          simpa using h1.symm
        rw [show (Obj.tree t).own.entries = t.t.map fun r => (r.1, Node.own (.treeEntry r.2)) from rfl,
          List.map_map, ← hrows]
        exact h3
      | commit c => simp only [Obj.own, Own.entries, List.map_cons, List.map_nil]; decide +kernel
      | tag t => simp only [Obj.own, Own.entries, List.map_cons, List.map_nil]; decide +kernel
    have hc := copyEntries_ok skip [] o.own.entries (by simpa using hn)
    cases o with
    | blob b => exact absurd rfl (ho b)
    | tree t => exact congrArg (fun r => r >>= fun es => Res.ok (Node.map es)) hc
    | commit c => exact congrArg (fun r => r >>= fun es => Res.ok (Node.map es)) hc
    | tag t => exact congrArg (fun r => r >>= fun es => Res.ok (Node.map es)) hc
  · rw [decode_parse, h]; rfl
  · rw [decode_parse, h]; rfl

theorem readsMap_filter {es : List (Bytes × Node)} {ds : List (Bytes × Data)} (p : Bytes × Node → Bool)
    (q : Bytes × Data → Bool) (h : ReadsMap es ds) (hpq : ∀ k n d, Reads n d → p (k, n) = q (k, d)) :
    ReadsMap (es.filter p) (ds.filter q) := by
  induction es generalizing ds with
  | nil => cases h; exact .nil
  | cons e es ih =>
    cases h with
    | cons h1 h2 =>
      rw [List.filter_cons, List.filter_cons, hpq _ _ _ h1]
      split
      · exact .cons h1 (ih h2)
      · exact ih h2

/-- Data that is not there. -/
def notThere : Data → Bool
  | .absent => true
  | _ => false

theorem reads_absent {n : Node} {d : Data} (h : Reads n d) : n.isAbsent = notThere d := by
  cases h with
  | absent => rfl
  | str h _ | bytes h _ | link h _ | list h _ _ | map h _ _ =>
    cases n <;> first | rfl | cases h

theorem there_opt {α : Type} (k : Bytes) (f : α → Data) (hf : ∀ a, notThere (f a) = false) (o : Option α) :
    (optData false k f o).filter (fun e => !(true && notThere e.2)) = optData true k f o := by
  cases o with
  | none => rfl
  | some a => simp [optData, hf]

/-- The copy is equal to the object, in the typed view if absent values are copied
and in the representation if they are left out. -/
theorem copy_equal (skip : Bool) (o : Obj) (ho : ∀ b, o ≠ .blob b) :
    Answers (.map (copied skip o.own.entries)) (viewOf skip o.own) true := by
  have key : ∀ es ds, o.own.kind = .map → ownData false o.own = .map ds → o.own.entries = es →
      ownData skip o.own = .map (ds.filter fun e => !(skip && notThere e.2)) →
      Answers (.map (copied skip o.own.entries)) (viewOf skip o.own) true := by
    rintro es ds hk hd rfl hs
    have hr := reads_own false o.own
    rw [hd] at hr
    have hm : ReadsMap o.own.entries ds := by
      cases hr with
      | map _ h1 h2 =>
        have : (viewOf false o.own).mapIterator = some o.own.entries := if_pos hk
        rw [this] at h1
        cases h1
        exact h2
    have hr' : Reads (.map (copied skip o.own.entries)) (ownData skip o.own) := by
      rw [hs]
      refine .map rfl rfl (readsMap_filter _ _ hm ?_)
      intro k n d h
      simp only [reads_absent h]
    obtain ⟨b, h1, _, h3⟩ := deep_equal_reads _ (viewOf skip o.own) _ hr'
    have : b = true := h3.2 (reads_own skip o.own)
    exact this ▸ h1
  cases o with
  | blob b => exact absurd rfl (ho b)
  | tree t =>
    refine key _ _ rfl rfl rfl ?_
    rw [List.filter_eq_self.2]
    · rfl
    · intro e he
      simp only [List.mem_map] at he
      obtain ⟨r, _, rfl⟩ := he
      cases skip <;> rfl
  | tag t => exact key _ _ rfl rfl rfl (by cases skip <;> rfl)
  | commit c =>
    refine key _ _ rfl rfl rfl ?_
    cases skip with
    | false => rw [List.filter_eq_self.2 (by intro e _; rfl)]; rfl
    | true =>
      have hp : ∀ p, notThere (personData p) = false := fun _ => rfl
      have hs : ∀ b, notThere (.str b) = false := fun _ => rfl
      show commitData true c = .map (List.filter _ (_ :: _ :: _ :: _))
      simp only [List.filter_cons, List.filter_append]
      rw [there_opt _ _ hp, there_opt _ _ hp, there_opt _ _ hs, there_opt _ _ hs]
      rfl

/-- Decoding into any other prototype: only blobs into bytes. -/
theorem decode_scalar (B : Basic) (h1 : B ≠ .any) (h2 : ∀ skip, B ≠ .map skip) (s : Stream) (o : Obj)
    (h : parseObject s = .ok o) :
    (∀ b, B = .bytes → o = .blob b → decode B.sink s = .ok (.bytes b)) ∧
    ((B ≠ .bytes ∨ ∀ b, o ≠ .blob b) → decode B.sink s = .err .wrongKind) := by
  rw [decode_parse, h, Res.bind_ok]
  constructor
  · rintro b rfl rfl
    rfl
  · intro hB
    cases B <;> cases o <;> first
      | exact absurd rfl h1
      | exact absurd rfl (h2 _)
      | rfl
      | exact absurd rfl (hB.resolve_left (fun h => h rfl) _)

/-! ## Cases -/

/-- A commit without signature, decoded into a map: the copy is refused by `Encode`,
although the commit is encoded, because the map holds the absent signature. -/
def plainCommit : Commit := { bare with author := some ann, committer := some ann }

example : (∃ b, encodeBytes (.own (.commit plainCommit)) = .ok b) ∧
    encodeBytes (.map (copied false (Own.commit plainCommit).entries)) = .err .wrongKind ∧
    encodeBytes (.map (copied true (Own.commit plainCommit).entries)) = encodeBytes (.own (.commit plainCommit)) :=
  ⟨⟨_, rfl⟩, (commit_copy_absent plainCommit).2 (fun h => h.2.2.1 rfl),
    (commit_copy plainCommit).trans (encode_commit_own plainCommit).symm⟩

example : decode Basic.any.sink (⟨b!"blob 2\x00hi", .eof, 4096⟩ : Stream) = .ok (.bytes b!"blob 2\x00hi") := by rfl

/-- The empty tree, copied into a map. -/
example : encodeBytes (.map (copied false (Own.tree ⟨[], []⟩).entries)) = .err .iterOver ∧
    encodeBytes (.own (.tree ⟨[], []⟩)) = .ok b!"tree 0\x00" := ⟨rfl, rfl⟩

end Verif.Props
