import Verif.Model.Typed
import Verif.Proofs.Lookup
import Verif.Props.Iter
import Verif.Props.Tree

/-!
# C58: the typed accessors agree with the node interface
-/

namespace Verif.Props

open Verif Spec

/-- The node behind a pointer that a typed accessor returned; nil is no node. -/
def ptrNode {α : Type} (f : α → Own) : Option α → Res Node
  | none => .err .notExists
  | some a => .ok (.own (f a))

/-- The `FieldX` methods of the four struct types: what `LookupByString` reports
for the field, `Absent` when an optional field is not there. -/
theorem typed_fields :
    (∀ p : PersonInfo, ∀ l, l = (Own.person p).lookup →
      l b!"date" = ptrNode .string p.fieldDate ∧
      l b!"timezone" = ptrNode .string p.fieldTimezone ∧
      l b!"email" = ptrNode .string p.fieldEmail ∧
      l b!"name" = ptrNode .string p.fieldName) ∧
    (∀ e : TreeEntry, ∀ l, l = (Own.treeEntry e).lookup →
      l b!"mode" = ptrNode .string e.fieldMode ∧
      l b!"hash" = ptrNode .link e.fieldHash) ∧
    (∀ t : Tag, ∀ l, l = (Own.tag t).lookup →
      l b!"object" = ptrNode .link t.fieldObject ∧
      l b!"type" = ptrNode .string t.fieldType ∧
      l b!"tag" = ptrNode .string t.fieldTag ∧
      l b!"tagger" = ptrNode .person t.fieldTagger ∧
      l b!"message" = ptrNode .string t.fieldMessage) ∧
    (∀ c : Commit, ∀ l, l = (Own.commit c).lookup →
      l b!"tree" = ptrNode .treeLink c.fieldTree ∧
      l b!"parents" = ptrNode .linkList c.fieldParents ∧
      l b!"message" = ptrNode .string c.fieldMessage ∧
      l b!"author" = maybeAsNode .person c.fieldAuthor ∧
      l b!"committer" = maybeAsNode .person c.fieldCommitter ∧
      l b!"encoding" = maybeAsNode .string c.fieldEncoding ∧
      l b!"signature" = maybeAsNode .gpgSig c.fieldSignature ∧
      l b!"mergetag" = ptrNode .tagList c.fieldMergetag ∧
      l b!"other" = ptrNode .stringList c.fieldOther) := by
  refine ⟨?_, ?_, ?_, ?_⟩
  · rintro p _ rfl; exact ⟨rfl, rfl, rfl, rfl⟩
  · rintro e _ rfl; exact ⟨rfl, rfl⟩
  · rintro t _ rfl; exact ⟨rfl, rfl, rfl, rfl, rfl⟩
  · rintro ⟨tree, parents, message, author, committer, encoding, signature, mergetag, other⟩ _ rfl
    refine ⟨rfl, rfl, rfl, ?_, ?_, ?_, ?_, rfl, rfl⟩
    · cases author <;> rfl
    · cases committer <;> rfl
    · cases encoding <;> rfl
    · cases signature <;> rfl

/-- The four optional fields of a commit: the handle is never nil and never
`null`; it says `Exists` and `Must` returns the value exactly if the field is
there; if it is not there, the handle says `IsAbsent` and `Must` panics. -/
theorem typed_optional {α : Type} (m : Option (MaybeOf α)) (o : Option α)
    (h : m = some (.ofOption o)) :
    maybeExists m = .ok o.isSome ∧ maybeIsAbsent m = .ok o.isNone ∧ maybeIsNull m = .ok false ∧
    (∀ a, o = some a ↔ maybeMust m = .ok (some a)) ∧ (o = none ↔ maybeMust m = .panic) := by
  subst h
  cases o with
  | none =>
    refine ⟨rfl, rfl, rfl, fun a => ⟨(fun h => by cases h), fun h => ?_⟩, ⟨fun _ => rfl, fun _ => rfl⟩⟩
    cases (show (Res.panic : Res (Option α)) = .ok (some a) from h)
  | some b =>
    refine ⟨rfl, rfl, rfl, fun a => ⟨(fun h => by cases h; rfl), fun h => ?_⟩,
      ⟨(fun h => by cases h), fun h => ?_⟩⟩
    · have h : (Res.ok (some b) : Res (Option α)) = .ok (some a) := h
      injection h
    · cases (show (Res.ok (some b) : Res (Option α)) = .panic from h)

/-- `typed_optional` applies to the fields of every commit. -/
theorem typed_optional_fields (c : Commit) :
    c.fieldAuthor = some (.ofOption c.author) ∧ c.fieldCommitter = some (.ofOption c.committer) ∧
    c.fieldEncoding = some (.ofOption c.encoding) ∧ c.fieldSignature = some (.ofOption c.signature) :=
  ⟨rfl, rfl, rfl, rfl⟩

/-- The node that `LookupByIndex` reports for a typed `Lookup`. -/
def ptrRes {α : Type} (f : α → Own) (r : Res (Option α)) : Res Node := do ptrNode f (← r)

theorem typedIndex_ptr {α : Type} (f : α → Own) (x : List α) (idx : Int) :
    (if (x.length : Int) ≤ idx then Res.err .notExists
      else do .ok (Node.own (f (← goIndex x idx)))) = ptrRes f (typedIndex x idx) := by
  rw [typedIndex]
  by_cases h : (x.length : Int) ≤ idx
  · rw [if_pos h, if_pos h]; rfl
  · rw [if_neg h, if_neg h]
    cases goIndex x idx <;> rfl

/-- `Lookup` of the list types is `LookupByIndex`, with nil for "not exists". -/
theorem typed_list_lookup (idx : Int) :
    (∀ x, (Own.linkList x).lookupIndex idx = ptrRes .commitLink (typedIndex x idx)) ∧
    (∀ x, (Own.stringList x).lookupIndex idx = ptrRes .string (typedIndex x idx)) ∧
    (∀ x, (Own.tagList x).lookupIndex idx = ptrRes .tag (typedIndex x idx)) :=
  ⟨fun x => typedIndex_ptr _ x idx, fun x => typedIndex_ptr _ x idx, fun x => typedIndex_ptr _ x idx⟩

/-- `Lookup` and `LookupMaybe` of a list: the element at an index inside the list,
nil after the end, a panic for a negative index. -/
theorem typed_list_range {α : Type} (x : List α) (idx : Int) :
    (∀ n a, idx = Int.ofNat n → x[n]? = some a →
      typedIndex x idx = .ok (some a) ∧
      typedIndexMaybe x idx = .ok (some (.ofOption (some a)))) ∧
    ((x.length : Int) ≤ idx → typedIndex x idx = .ok none ∧ typedIndexMaybe x idx = .ok none) ∧
    (idx < 0 → typedIndex x idx = .panic ∧ typedIndexMaybe x idx = .panic) := by
  refine ⟨?_, fun h => ⟨by rw [typedIndex, if_pos h], by rw [typedIndexMaybe, if_pos h]⟩, ?_⟩
  · rintro n a rfl ha
    have hn : n < x.length := by
      rcases List.getElem?_eq_some_iff.1 ha with ⟨h, _⟩; exact h
    have h : ¬ (x.length : Int) ≤ Int.ofNat n := by simp; omega
    have hg : goIndex x (Int.ofNat n) = .ok a := by
      rw [goIndex, if_neg (by simp)]
      simp [ha]
    rw [typedIndex, if_neg h, typedIndexMaybe, if_neg h, hg]
    exact ⟨rfl, rfl⟩
  · intro h
    have h' : ¬ (x.length : Int) ≤ idx := by omega
    rw [typedIndex, if_neg h', typedIndexMaybe, if_neg h', goIndex, if_pos h]
    exact ⟨rfl, rfl⟩

/-- Where the claim fails: after the end of a list `LookupMaybe` returns a nil
`MaybeX`, not an absent one, so asking it anything is a panic. -/
theorem typed_list_maybe_panics {α : Type} (f : α → Own) (x : List α) (idx : Int)
    (h : (x.length : Int) ≤ idx) :
    ∃ m, typedIndexMaybe x idx = .ok m ∧ maybeExists m = .panic ∧ maybeIsAbsent m = .panic ∧
      maybeIsNull m = .panic ∧ maybeAsNode f m = .panic ∧ maybeMust m = .panic :=
  ⟨none, ((typed_list_range x idx).2.1 h).2, rfl, rfl, rfl, rfl, rfl⟩

/-- `Lookup` and `LookupMaybe` of a tree agree with `LookupByString`: nil or an
absent handle where the name is not in the tree; only a nil key panics. -/
theorem typed_tree_lookup (t : Tree) (k : Bytes) :
    (Own.tree t).lookup k = ptrRes .treeEntry (typedLookup t (some k)) ∧
    (∃ o, typedLookup t (some k) = .ok o ∧
      typedLookupMaybe t (some k) = .ok (some (.ofOption o))) ∧
    typedLookup t none = .panic ∧ typedLookupMaybe t none = .panic := by
  refine ⟨?_, ⟨mapGet t.m k, rfl, ?_⟩, rfl, rfl⟩
  · show (match mapGet t.m k with
      | some e => Res.ok (Node.own (.treeEntry e))
      | none => Res.err Err.notExists) = ptrNode .treeEntry (mapGet t.m k)
    cases mapGet t.m k <;> rfl
  · rw [typedLookupMaybe]
    cases mapGet t.m k <;> rfl

theorem typedListItr_run {α : Type} (x : List α) :
    ∀ (n idx : Nat), x.length ≤ n + idx →
      TypedListItr.run n ⟨x, idx⟩
        = .ok (((x.drop idx).zipIdx idx).map fun p => ((p.2 : Int), some p.1)) := by
  intro n
  induction n with
  | zero =>
    intro idx h
    have hd : (TypedListItr.mk x idx).done = true := by simp [TypedListItr.done]; omega
    rw [TypedListItr.run, if_pos hd, List.drop_eq_nil_of_le (by omega)]
    rfl
  | succ n ih =>
    intro idx h
    rw [TypedListItr.run]
    by_cases hi : x.length ≤ idx
    · have hd : (TypedListItr.mk x idx).done = true := by simp [TypedListItr.done]; omega
      rw [if_pos hd, List.drop_eq_nil_of_le hi]
      rfl
    · have hd : ¬ (TypedListItr.mk x idx).done = true := by simp [TypedListItr.done]; omega
      have hlt : idx < x.length := by omega
      have hg : goIndex x (idx : Int) = .ok x[idx] := by
        rw [goIndex, if_neg (by omega)]
        simp [List.getElem?_eq_getElem hlt]
      have hn : (TypedListItr.mk x idx).next = .ok (((idx : Int), some x[idx]), ⟨x, idx + 1⟩) := by
        rw [TypedListItr.next, if_neg (by simpa using hi)]
        show (goIndex x (idx : Int) >>= _) = _
        rw [hg]; rfl
      rw [if_neg hd, hn, Res.bind_ok]
      show (TypedListItr.run n ⟨x, idx + 1⟩ >>= fun es => Res.ok (((idx : Int), some x[idx]) :: es)) = _
      rw [ih (idx + 1) (by omega), Res.bind_ok, List.drop_eq_getElem_cons hlt, List.zipIdx_cons]
      rfl

/-- The typed iterator of a list reports the elements in order with the indices 0,
1, 2, ..., which is what the untyped one reports, and no nil among them. At the
end it returns -1 and nil, as often as it is asked. -/
theorem typed_list_iteration {α : Type} (f : α → Own) (x : List α) (n : Nat) (h : x.length ≤ n) :
    (∃ es, TypedListItr.run n ⟨x, 0⟩ = .ok es ∧
      es = x.zipIdx.map (fun p => ((p.2 : Int), some p.1)) ∧
      ListItr.run (ListItr.next f) n ⟨x, 0⟩
        = .ok (x.zipIdx.map fun p => ((p.2 : Int), Node.own (f p.1)))) ∧
    (∀ i : TypedListItr α, i.done = true → i.next = .ok ((-1, none), i)) ∧
    (∀ i : TypedListItr α, i.done = false →
      ∃ a, i.x[i.idx]? = some a ∧ i.next = .ok (((i.idx : Int), some a), ⟨i.x, i.idx + 1⟩)) := by
  refine ⟨⟨_, typedListItr_run x n 0 (by omega), rfl, (listItr_run f x n 0 (by omega)).1⟩, ?_, ?_⟩
  · intro i hi
    have hi : i.idx ≥ i.x.length := by simpa [TypedListItr.done] using hi
    rw [TypedListItr.next, if_pos hi]
  · intro i hi
    have hi : ¬ i.idx ≥ i.x.length := by simpa [TypedListItr.done] using hi
    have hlt : i.idx < i.x.length := by omega
    refine ⟨i.x[i.idx], List.getElem?_eq_getElem hlt, ?_⟩
    have hg : goIndex i.x (i.idx : Int) = .ok i.x[i.idx] := by
      rw [goIndex, if_neg (by omega)]
      simp [List.getElem?_eq_getElem hlt]
    rw [TypedListItr.next, if_neg hi, hg]
    rfl

theorem typedListItr_runNil {α : Type} (x : List α) :
    ∀ (n idx : Nat), idx ≤ x.length → x.length < n + idx →
      TypedListItr.runNil n ⟨x, idx⟩
        = .ok (((x.drop idx).zipIdx idx).map fun p => ((p.2 : Int), some p.1)) := by
  intro n
  induction n with
  | zero => intro idx h h'; omega
  | succ n ih =>
    intro idx h h'
    rw [TypedListItr.runNil]
    by_cases hi : x.length ≤ idx
    · have hn : (TypedListItr.mk x idx).next = .ok ((-1, none), ⟨x, idx⟩) := by
        rw [TypedListItr.next, if_pos hi]
      rw [hn, List.drop_eq_nil_of_le hi]
      rfl
    · have hlt : idx < x.length := by omega
      have hg : goIndex x (idx : Int) = .ok x[idx] := by
        rw [goIndex, if_neg (by omega)]
        simp [List.getElem?_eq_getElem hlt]
      have hn : (TypedListItr.mk x idx).next = .ok (((idx : Int), some x[idx]), ⟨x, idx + 1⟩) := by
        rw [TypedListItr.next, if_neg (by simpa using hi)]
        show (goIndex x (idx : Int) >>= _) = _
        rw [hg]; rfl
      rw [hn, Res.bind_ok]
      show (TypedListItr.runNil n ⟨x, idx + 1⟩ >>= fun es =>
        Res.ok (((idx : Int), some x[idx]) :: es)) = _
      rw [ih (idx + 1) (by omega) (by omega), Res.bind_ok, List.drop_eq_getElem_cons hlt,
        List.zipIdx_cons]
      rfl

/-- A loop that stops at the first nil and does not ask `Done` sees the same
elements. -/
theorem typed_list_nil_loop {α : Type} (x : List α) (n : Nat) (h : x.length < n) :
    TypedListItr.runNil n ⟨x, 0⟩ = TypedListItr.run n ⟨x, 0⟩ := by
  rw [typedListItr_run x n 0 (by omega), typedListItr_runNil x n 0 (by omega) (by omega)]

theorem typedTreeItr_run (t : Tree) :
    ∀ (n idx : Nat), t.t.length ≤ n + idx →
      TypedTreeItr.run n ⟨t, idx⟩ = .ok ((t.t.drop idx).map some) := by
  intro n
  induction n with
  | zero =>
    intro idx h
    have hd : (TypedTreeItr.mk t idx).done = true := by simp [TypedTreeItr.done]; omega
    rw [TypedTreeItr.run, if_pos hd, List.drop_eq_nil_of_le (by omega)]
    rfl
  | succ n ih =>
    intro idx h
    rw [TypedTreeItr.run]
    by_cases hi : t.t.length ≤ idx
    · have hd : (TypedTreeItr.mk t idx).done = true := by simp [TypedTreeItr.done]; omega
      rw [if_pos hd, List.drop_eq_nil_of_le hi]
      rfl
    · have hd : ¬ (TypedTreeItr.mk t idx).done = true := by simp [TypedTreeItr.done]; omega
      have hlt : idx < t.t.length := by omega
      have hn : (TypedTreeItr.mk t idx).next = (some t.t[idx], ⟨t, idx + 1⟩) := by
        rw [TypedTreeItr.next]
        simp only [List.getElem?_eq_getElem hlt]
      rw [if_neg hd, hn, ih (idx + 1) (by omega), Res.bind_ok, List.drop_eq_getElem_cons hlt]
      rfl

/-- The typed iterator of a tree reports the entries that the untyped one reports,
in the same order, and at the end nil as often as it is asked. -/
theorem typed_tree_iteration (t : Tree) (n : Nat) (h : t.t.length ≤ n) :
    (∃ rs, TypedTreeItr.run n ⟨t, 0⟩ = .ok (rs.map some) ∧ TreeItr.run n (treeIterator t) = .ok rs ∧
      rs.length = treeLength t) ∧
    (∀ i : TypedTreeItr, i.done = true → i.next = (none, i)) := by
  refine ⟨⟨t.t, by simpa using typedTreeItr_run t n 0 (by omega), ?_, rfl⟩, ?_⟩
  · simpa [treeIterator] using treeItr_run t n 0 (by omega)
  · intro i hi
    have hi : i.n.t.length ≤ i.idx := by simpa [TypedTreeItr.done] using hi
    rw [TypedTreeItr.next, List.getElem?_eq_none hi]

/-- A commit with an author and no committer, a list with two elements and a tree
with one entry. -/
example :
    maybeMust (Commit.fieldAuthor { Commit.zero with author := some ⟨b!"N", b!"e", b!"2", b!"+0100"⟩ })
      = .ok (some ⟨b!"N", b!"e", b!"2", b!"+0100"⟩) ∧
    maybeMust (Commit.fieldCommitter Commit.zero) = .panic ∧
    typedIndex [b!"a", b!"b"] 1 = .ok (some b!"b") ∧ typedIndex [b!"a", b!"b"] 2 = .ok none ∧
    typedIndexMaybe [b!"a", b!"b"] 2 = .ok none ∧
    typedLookupMaybe ⟨[], []⟩ (some b!"a") = .ok (some ⟨.absent, none⟩) ∧
    TypedListItr.run 2 ⟨[b!"a", b!"b"], 0⟩ = .ok [(0, some b!"a"), (1, some b!"b")] ∧
    TypedTreeItr.run 1 ⟨⟨[(b!"f", ⟨b!"100644", .nil⟩)], [(b!"f", ⟨b!"100644", .nil⟩)]⟩, 0⟩
      = .ok [some (b!"f", ⟨b!"100644", .nil⟩)] :=
  ⟨rfl, rfl, rfl, rfl, rfl, rfl, rfl, rfl⟩

end Verif.Props
