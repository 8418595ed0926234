import Verif.Model.Iter
import Verif.Spec.Schema

/-!
# C41: iteration, lookup and length of struct nodes agree
-/

namespace Verif.Props

open Verif Spec

/-- The commit used in the examples. -/
def iterCommit : Commit :=
  { Commit.zero with
    author := some ⟨b!"A", b!"a@b", b!"1", b!"+0000"⟩
    encoding := some b!"latin1"
    other := [b!"x y"] }

/-- Typed view: the client's loop over `MapIterator()` ends without error and
reports every schema field once, in schema order; an optional field that is not
there is reported with the value `ipld.Absent`. -/
theorem iter_typed (v : Own) (h : IsStruct v) :
    ∃ i, v.itr = some i ∧
      i.run = .ok ((fieldNames v).map fun k =>
        (k, match fieldValue v k with
            | some x => Node.own x
            | none => Node.absent)) := by
  cases v <;> simp only [IsStruct] at h
  case person p => exact ⟨_, rfl, rfl⟩
  case treeEntry e => exact ⟨_, rfl, rfl⟩
  case tag t => exact ⟨_, rfl, rfl⟩
  case commit c =>
    refine ⟨_, rfl, ?_⟩
    obtain ⟨tr, pa, ms, au, co, en, si, mt, ot⟩ := c
    cases au <;> cases co <;> cases en <;> cases si <;> rfl

/-- Representation view: the loop reports the fields that are there, once, in
schema order. -/
theorem iter_repr (v : Own) (h : IsStruct v) :
    ∃ i, v.reprItr = some i ∧
      i.run = .ok ((fieldNames v).filterMap fun k =>
        (fieldValue v k).map fun x => (k, x.representation)) := by
  cases v <;> simp only [IsStruct] at h
  case person p => exact ⟨_, rfl, rfl⟩
  case treeEntry e => exact ⟨_, rfl, rfl⟩
  case tag t => exact ⟨_, rfl, rfl⟩
  case commit c =>
    refine ⟨_, rfl, ?_⟩
    obtain ⟨tr, pa, ms, au, co, en, si, mt, ot⟩ := c
    cases au <;> cases co <;> cases en <;> cases si <;> rfl

/-- A field has a value exactly when it is a schema field that is there. -/
theorem iter_fieldValue (v : Own) (h : IsStruct v) (k : Bytes) :
    (fieldValue v k).isSome = (decide (k ∈ fieldNames v) && present v k) := by
  by_cases hk : k ∈ fieldNames v
  · rw [decide_eq_true hk, Bool.true_and]
    cases v <;> simp only [IsStruct] at h
    all_goals simp only [fieldNames, List.mem_cons, List.not_mem_nil, or_false] at hk
    case person p => rcases hk with rfl | rfl | rfl | rfl <;> rfl
    case treeEntry e => rcases hk with rfl | rfl <;> rfl
    case tag t => rcases hk with rfl | rfl | rfl | rfl | rfl <;> rfl
    case commit c =>
      obtain ⟨tr, pa, ms, au, co, en, si, mt, ot⟩ := c
      rcases hk with rfl | rfl | rfl | rfl | rfl | rfl | rfl | rfl | rfl
      all_goals first
        | rfl | (cases au <;> rfl) | (cases co <;> rfl) | (cases en <;> rfl) | (cases si <;> rfl)
  · rw [decide_eq_false hk, Bool.false_and]
    cases v <;> simp only [IsStruct] at h <;> simp [fieldNames] at hk <;> simp [fieldValue, hk]

/-- Schema fields do not repeat. -/
theorem iter_nodup (v : Own) : (fieldNames v).Nodup := by
  cases v <;> simp [fieldNames]

/-- Typed view: `Length` is the number of schema fields. -/
theorem iter_length (v : Own) (h : IsStruct v) :
    v.length = (fieldNames v).length := by
  cases v <;> simp only [IsStruct] at h <;> rfl

/-- Representation view: `Length` is the number of fields that are there. -/
theorem iter_reprLength (v : Own) (h : IsStruct v) :
    v.reprLength = ((fieldNames v).filter (present v)).length := by
  cases v <;> simp only [IsStruct] at h
  case person p => rfl
  case treeEntry e => rfl
  case tag t => rfl
  case commit c =>
    obtain ⟨tr, pa, ms, au, co, en, si, mt, ot⟩ := c
    cases au <;> cases co <;> cases en <;> cases si <;> rfl

/-- Typed view: `LookupByString` finds the value of every schema field, `Absent`
when an optional field is not there, and rejects every other key. -/
theorem iter_lookup (v : Own) (h : IsStruct v) (k : Bytes) :
    v.lookup k =
      if k ∈ fieldNames v then
        .ok (match fieldValue v k with
          | some x => .own x
          | none => .absent)
      else .err .invalidKey := by
  split
  · rename_i hk
    cases v <;> simp only [IsStruct] at h
    all_goals simp only [fieldNames, List.mem_cons, List.not_mem_nil, or_false] at hk
    case person p => rcases hk with rfl | rfl | rfl | rfl <;> rfl
    case treeEntry e => rcases hk with rfl | rfl <;> rfl
    case tag t => rcases hk with rfl | rfl | rfl | rfl | rfl <;> rfl
    case commit c =>
      obtain ⟨tr, pa, ms, au, co, en, si, mt, ot⟩ := c
      rcases hk with rfl | rfl | rfl | rfl | rfl | rfl | rfl | rfl | rfl
      all_goals first
        | rfl | (cases au <;> rfl) | (cases co <;> rfl) | (cases en <;> rfl) | (cases si <;> rfl)
  · rename_i hk
    cases v <;> simp only [IsStruct] at h <;> simp [fieldNames] at hk <;> simp [Own.lookup, hk]

/-- Representation view: `LookupByString` finds the value of every schema field
that is there and returns an error for every other key. -/
theorem iter_reprLookup (v : Own) (h : IsStruct v) (k : Bytes) :
    v.reprLookup k =
      match fieldValue v k with
      | some x => .ok x.representation
      | none => if k ∈ fieldNames v then .err .notExists else .err .invalidKey := by
  by_cases hk : k ∈ fieldNames v
  · rw [if_pos hk]
    cases v <;> simp only [IsStruct] at h
    all_goals simp only [fieldNames, List.mem_cons, List.not_mem_nil, or_false] at hk
    case person p => rcases hk with rfl | rfl | rfl | rfl <;> rfl
    case treeEntry e => rcases hk with rfl | rfl <;> rfl
    case tag t => rcases hk with rfl | rfl | rfl | rfl | rfl <;> rfl
    case commit c =>
      obtain ⟨tr, pa, ms, au, co, en, si, mt, ot⟩ := c
      rcases hk with rfl | rfl | rfl | rfl | rfl | rfl | rfl | rfl | rfl
      all_goals first
        | rfl | (cases au <;> rfl) | (cases co <;> rfl) | (cases en <;> rfl) | (cases si <;> rfl)
  · rw [if_neg hk]
    cases v <;> simp only [IsStruct] at h <;> simp [fieldNames] at hk <;>
      simp [Own.reprLookup, fieldValue, hk]

/-- C41 in one statement, typed view: iteration reports the schema fields in
order, as many as `Length`, and each reported value is what `LookupByString`
returns for its key. -/
theorem iteration_matches_lookup (v : Own) (h : IsStruct v) :
    ∃ i es, v.itr = some i ∧ i.run = .ok es ∧ es.map Prod.fst = fieldNames v ∧
      (es.map Prod.fst).Nodup ∧ v.length = es.length ∧
      ∀ k n, (k, n) ∈ es → v.lookup k = .ok n := by
  obtain ⟨i, h1, h2⟩ := iter_typed v h
  have h3 : ∀ (g : Bytes → Node) (l : List Bytes), (l.map fun k => (k, g k)).map Prod.fst = l := by
    intro g l
    induction l with
    | nil => rfl
    | cons a l ih => simp only [List.map_cons, ih]
  refine ⟨i, _, h1, h2, h3 _ _, ?_, ?_, ?_⟩
  · rw [h3]; exact iter_nodup v
  · rw [List.length_map]; exact iter_length v h
  · intro k n hm
    obtain ⟨k', hk, he⟩ := List.mem_map.1 hm
    cases he
    rw [iter_lookup v h, if_pos hk]

/-- C41, representation view: iteration reports exactly the fields that are
there, in schema order, as many as `Length`, and each reported value is what
`LookupByString` returns for its key. -/
theorem iteration_matches_lookup_repr (v : Own) (h : IsStruct v) :
    ∃ i es, v.reprItr = some i ∧ i.run = .ok es ∧
      es.map Prod.fst = (fieldNames v).filter (present v) ∧
      (es.map Prod.fst).Nodup ∧ v.reprLength = es.length ∧
      ∀ k n, (k, n) ∈ es → v.reprLookup k = .ok n := by
  obtain ⟨i, h1, h2⟩ := iter_repr v h
  have h3 : ∀ (l : List Bytes), (∀ k ∈ l, k ∈ fieldNames v) →
      (l.filterMap fun k => (fieldValue v k).map fun x => (k, x.representation)).map Prod.fst
        = l.filter (present v) := by
    intro l hl
    induction l with
    | nil => rfl
    | cons a l ih =>
      have ih := ih fun k hk => hl k (List.mem_cons_of_mem _ hk)
      have ha := iter_fieldValue v h a
      rw [decide_eq_true (hl a List.mem_cons_self), Bool.true_and] at ha
      cases hf : fieldValue v a with
      | none =>
        rw [hf] at ha
        rw [List.filterMap_cons_none (by rw [hf]; rfl), ih, List.filter_cons_of_neg]
        rw [← ha]; simp
      | some x =>
        rw [hf] at ha
        rw [List.filterMap_cons_some (by rw [hf]; rfl), List.map_cons, ih, List.filter_cons_of_pos]
        rw [← ha]; rfl
  have h4 := h3 (fieldNames v) fun _ hk => hk
  refine ⟨i, _, h1, h2, h4, ?_, ?_, ?_⟩
  · rw [h4]; exact (iter_nodup v).filter _
  · rw [iter_reprLength v h, ← h4, List.length_map]
  · intro k n hm
    obtain ⟨k', hk, he⟩ := List.mem_filterMap.1 hm
    cases hf : fieldValue v k' with
    | none => rw [hf] at he; cases he
    | some x =>
      rw [hf] at he
      cases he
      rw [iter_reprLookup v h, hf]

/-- The entry lists used for `MapIterator` in the rest of the model are what the
iterators report. -/
theorem iter_entries (v : Own) (h : IsStruct v) :
    (∃ i, v.itr = some i ∧ i.run = .ok v.entries) ∧
    (∃ i, v.reprItr = some i ∧ i.run = .ok v.reprEntries) := by
  cases v <;> simp only [IsStruct] at h
  case person p => exact ⟨⟨_, rfl, rfl⟩, ⟨_, rfl, rfl⟩⟩
  case treeEntry e => exact ⟨⟨_, rfl, rfl⟩, ⟨_, rfl, rfl⟩⟩
  case tag t => exact ⟨⟨_, rfl, rfl⟩, ⟨_, rfl, rfl⟩⟩
  case commit c =>
    refine ⟨⟨_, rfl, rfl⟩, ⟨_, rfl, ?_⟩⟩
    obtain ⟨tr, pa, ms, au, co, en, si, mt, ot⟩ := c
    cases au <;> cases co <;> cases en <;> cases si <;> rfl

/-- A commit with an author and an encoding but no committer and no signature
has nine typed entries and seven in the representation view. -/
example : IsStruct (.commit iterCommit) ∧ (Own.commit iterCommit).length = 9 ∧
    (Own.commit iterCommit).reprLength = 7 ∧
    (Own.commit iterCommit).reprEntries.map Prod.fst
      = [b!"tree", b!"parents", b!"message", b!"author", b!"encoding", b!"mergetag", b!"other"] :=
  ⟨trivial, rfl, rfl, rfl⟩

end Verif.Props
