import Verif.Spec.Lookup
import Verif.Spec.Schema
import Verif.Proofs.Num
import Verif.Props.Iter

/-!
# Lookups against iteration
-/

namespace Verif

open Spec

theorem goIndex_ok {α : Type} (l : List α) (i : Int) (a : α) :
    goIndex l i = .ok a ↔ ∃ n : Nat, i = n ∧ l[n]? = some a := by
  unfold goIndex
  split
  · constructor
    · intro h; cases h
    · rintro ⟨n, rfl, _⟩; omega
  · rename_i hi
    constructor
    · intro h
      cases hg : l[i.toNat]? with
      | none => rw [hg] at h; cases h
      | some b => rw [hg] at h; cases h; exact ⟨i.toNat, by omega, hg⟩
    · rintro ⟨n, rfl, hn⟩
      rw [show ((n : Int).toNat) = n from rfl, hn]

theorem goIndex_panic {α : Type} (l : List α) (i : Int) (h : i < l.length) :
    goIndex l i = .panic ↔ i < 0 := by
  unfold goIndex
  by_cases hi : i < 0
  · simp [hi]
  · rw [if_neg hi]
    have : i.toNat < l.length := by omega
    rw [List.getElem?_eq_getElem this]
    simp [hi]

theorem goIndex_not_err {α : Type} (l : List α) (i : Int) (e : Err) : goIndex l i ≠ .err e := by
  unfold goIndex
  split
  · simp
  · split <;> simp

/-- A list lookup in one of the three generated list types. -/
theorem listLookup_ok {α : Type} (f : α → Own) (x : List α) (i : Int) (m : Node) :
    (if (x.length : Int) ≤ i then (.err .notExists : Res Node)
      else (goIndex x i >>= fun a => .ok (.own (f a)))) = .ok m ↔
      ∃ n : Nat, i = n ∧ (x.map fun a => Node.own (f a))[n]? = some m := by
  split
  · rename_i hl
    constructor
    · intro h; cases h
    · rintro ⟨n, rfl, hn⟩
      rw [List.getElem?_eq_none (by simpa using hl)] at hn
      cases hn
  · rename_i hl
    rw [Res.bind_eq_ok]
    constructor
    · rintro ⟨a, ha, hm⟩
      cases hm
      obtain ⟨n, rfl, hn⟩ := (goIndex_ok _ _ _).1 ha
      exact ⟨n, rfl, by rw [List.getElem?_map, hn]; rfl⟩
    · rintro ⟨n, rfl, hn⟩
      rw [List.getElem?_map] at hn
      cases hx : x[n]? with
      | none => rw [hx] at hn; cases hn
      | some a =>
        rw [hx] at hn
        cases hn
        exact ⟨a, (goIndex_ok _ _ _).2 ⟨n, rfl, hx⟩, rfl⟩

theorem listLookup_panic {α : Type} (f : α → Own) (x : List α) (i : Int) :
    (if (x.length : Int) ≤ i then (.err .notExists : Res Node)
      else (goIndex x i >>= fun a => .ok (.own (f a)))) = .panic ↔ i < 0 := by
  split
  · constructor
    · intro h; cases h
    · intro h; omega
  · rename_i hl
    rw [Res.bind_eq_panic, goIndex_panic x i (by omega)]
    simp

theorem listLookup_err {α : Type} (f : α → Own) (x : List α) (i : Int) (e : Err) :
    (if (x.length : Int) ≤ i then (.err .notExists : Res Node)
      else (goIndex x i >>= fun a => .ok (.own (f a)))) = .err e ↔
      (x.length : Int) ≤ i ∧ e = .notExists := by
  split
  · rename_i hl
    simp [hl, eq_comm]
  · rename_i hl
    rw [Res.bind_eq_err]
    simp [goIndex_not_err, hl]

theorem lookupIndex_ok (v : Own) (i : Int) (m : Node) :
    v.lookupIndex i = .ok m ↔ ∃ n : Nat, i = n ∧ v.elems[n]? = some m := by
  cases v
  case linkList x => exact listLookup_ok .commitLink x i m
  case stringList x => exact listLookup_ok .string x i m
  case tagList x => exact listLookup_ok .tag x i m
  all_goals simp [Own.lookupIndex, Own.elems]

theorem lookupIndex_panic (v : Own) (i : Int) (h : v.kind = .list) :
    v.lookupIndex i = .panic ↔ i < 0 := by
  cases v <;> simp only [Own.kind, reduceCtorEq] at h
  case linkList x => exact listLookup_panic .commitLink x i
  case stringList x => exact listLookup_panic .string x i
  case tagList x => exact listLookup_panic .tag x i

theorem lookupIndex_err (v : Own) (i : Int) (h : v.kind = .list) (e : Err) :
    v.lookupIndex i = .err e ↔ v.length ≤ i ∧ e = .notExists := by
  cases v <;> simp only [Own.kind, reduceCtorEq] at h
  case linkList x => exact listLookup_err .commitLink x i e
  case stringList x => exact listLookup_err .string x i e
  case tagList x => exact listLookup_err .tag x i e

theorem reprElems_eq (v : Own) : v.reprElems = v.elems.map Node.reprOf := by
  cases v <;> simp [Own.reprElems, Own.elems, Node.reprOf, Function.comp_def]

theorem reprLookupIndex_ok (v : Own) (i : Int) (m : Node) :
    v.reprLookupIndex i = .ok m ↔ ∃ n : Nat, i = n ∧ v.reprElems[n]? = some m := by
  unfold Own.reprLookupIndex
  rw [Res.bind_eq_ok, reprElems_eq]
  constructor
  · rintro ⟨a, ha, hm⟩
    cases hm
    obtain ⟨n, rfl, hn⟩ := (lookupIndex_ok _ _ _).1 ha
    exact ⟨n, rfl, by rw [List.getElem?_map, hn]; rfl⟩
  · rintro ⟨n, rfl, hn⟩
    rw [List.getElem?_map] at hn
    cases hx : v.elems[n]? with
    | none => rw [hx] at hn; cases hn
    | some a =>
      rw [hx] at hn
      cases hn
      exact ⟨a, (lookupIndex_ok _ _ _).2 ⟨n, rfl, hx⟩, rfl⟩

theorem reprLookupIndex_panic (v : Own) (i : Int) (h : v.kind = .list) :
    v.reprLookupIndex i = .panic ↔ i < 0 := by
  unfold Own.reprLookupIndex
  rw [Res.bind_eq_panic, lookupIndex_panic v i h]
  simp

theorem reprLookupIndex_err (v : Own) (i : Int) (h : v.kind = .list) (e : Err) :
    v.reprLookupIndex i = .err e ↔ v.length ≤ i ∧ e = .notExists := by
  unfold Own.reprLookupIndex
  rw [Res.bind_eq_err, lookupIndex_err v i h]
  simp

/-! ## Segments -/

theorem index_ok (g : Seg) (i : Int) : g.index = .ok i ↔ StandsFor g i := by
  unfold Seg.index StandsFor
  split
  · rename_i h
    rw [atoi_iff]
    constructor
    · intro h'; exact .inr ⟨h, h'⟩
    · rintro (⟨h', _⟩ | ⟨_, h'⟩)
      · omega
      · exact h'
  · rename_i h
    constructor
    · intro h'; cases h'; exact .inl ⟨by omega, rfl⟩
    · rintro (⟨_, rfl⟩ | ⟨h', _⟩)
      · rfl
      · omega

theorem atoi_no_panic (s : Bytes) : atoi s ≠ .panic := by
  unfold atoi
  split
  · simp
  · split
    · simp
    · split <;> split <;> simp

theorem index_no_panic (g : Seg) : g.index ≠ .panic := by
  unfold Seg.index
  split
  · exact atoi_no_panic _
  · simp

theorem string_spells (g : Seg) (k : Bytes) : g.string = k ↔ Spells g k := by
  unfold Seg.string Spells
  split
  · rename_i h
    constructor
    · rintro rfl; exact .inl ⟨h, rfl⟩
    · rintro (⟨_, rfl⟩ | ⟨h', _⟩)
      · rfl
      · omega
  · rename_i h
    constructor
    · rintro rfl; exact .inr ⟨by omega, decimal_canonical _⟩
    · rintro (⟨h', _⟩ | ⟨_, h'⟩)
      · omega
      · exact canonical_unique _ _ _ (decimal_canonical _) h'

/-! ## Maps -/

theorem lookup_struct (v : Own) (h : IsStruct v) (k : Bytes) (m : Node) :
    v.lookup k = .ok m ↔ (k, m) ∈ v.entries := by
  obtain ⟨i, es, h1, h2, h3, _, _, h6⟩ := Props.iteration_matches_lookup v h
  obtain ⟨⟨i', h1', h2'⟩, _⟩ := Props.iter_entries v h
  rw [h1] at h1'
  cases h1'
  rw [h2] at h2'
  cases h2'
  constructor
  · intro hl
    have hk : k ∈ fieldNames v := by
      by_cases hk : k ∈ fieldNames v
      · exact hk
      · rw [Props.iter_lookup v h, if_neg hk] at hl; cases hl
    rw [← h3] at hk
    obtain ⟨⟨k', n⟩, hm, rfl⟩ := List.mem_map.1 hk
    have := h6 _ _ hm
    rw [hl] at this
    cases this
    exact hm
  · exact h6 k m

theorem reprLookup_struct (v : Own) (h : IsStruct v) (k : Bytes) (m : Node) :
    v.reprLookup k = .ok m ↔ (k, m) ∈ v.reprEntries := by
  obtain ⟨i, es, h1, h2, h3, _, _, h6⟩ := Props.iteration_matches_lookup_repr v h
  obtain ⟨_, i', h1', h2'⟩ := Props.iter_entries v h
  rw [h1] at h1'
  cases h1'
  rw [h2] at h2'
  cases h2'
  constructor
  · intro hl
    have hk : k ∈ (fieldNames v).filter (present v) := by
      rw [Props.iter_reprLookup v h] at hl
      cases hf : fieldValue v k with
      | none => rw [hf] at hl; dsimp only at hl; split at hl <;> cases hl
      | some x =>
        have := Props.iter_fieldValue v h k
        rw [hf] at this
        simp only [Option.isSome_some, Bool.true_eq, Bool.and_eq_true, decide_eq_true_eq] at this
        exact List.mem_filter.2 this
    rw [← h3] at hk
    obtain ⟨⟨k', n⟩, hm, rfl⟩ := List.mem_map.1 hk
    have := h6 _ _ hm
    rw [hl] at this
    cases this
    exact hm
  · exact h6 k m

theorem lookup_tree (t : Tree) (h : Agree (.tree t)) (k : Bytes) (m : Node) :
    (Own.tree t).lookup k = .ok m ↔ (k, m) ∈ (Own.tree t).entries := by
  simp only [Own.lookup, Own.entries, List.mem_map, Prod.mk.injEq, Prod.exists]
  constructor
  · intro hl
    cases hg : mapGet t.m k with
    | none => rw [hg] at hl; cases hl
    | some e => rw [hg] at hl; cases hl; exact ⟨k, e, (h k e).1 hg, rfl, rfl⟩
  · rintro ⟨k', e, he, rfl, rfl⟩
    rw [(h _ _).2 he]

theorem reprLookup_tree (t : Tree) (h : Agree (.tree t)) (k : Bytes) (m : Node) :
    (Own.tree t).reprLookup k = .ok m ↔ (k, m) ∈ (Own.tree t).reprEntries := by
  simp only [Own.reprLookup, Own.reprEntries, List.mem_map, Prod.mk.injEq, Prod.exists]
  constructor
  · intro hl
    cases hg : mapGet t.m k with
    | none => rw [hg] at hl; cases hl
    | some e => rw [hg] at hl; cases hl; exact ⟨k, e, (h k e).1 hg, rfl, rfl⟩
  · rintro ⟨k', e, he, rfl, rfl⟩
    rw [(h _ _).2 he]

theorem lookup_map (v : Own) (hk : v.kind = .map) (ha : Agree v) (k : Bytes) (m : Node) :
    (v.lookup k = .ok m ↔ (k, m) ∈ v.entries) ∧
    (v.reprLookup k = .ok m ↔ (k, m) ∈ v.reprEntries) := by
  cases v <;> simp only [Own.kind, reduceCtorEq] at hk
  case tree t => exact ⟨lookup_tree t ha k m, reprLookup_tree t ha k m⟩
  case person p => exact ⟨lookup_struct (.person p) trivial k m, reprLookup_struct (.person p) trivial k m⟩
  case treeEntry p =>
    exact ⟨lookup_struct (.treeEntry p) trivial k m, reprLookup_struct (.treeEntry p) trivial k m⟩
  case tag p => exact ⟨lookup_struct (.tag p) trivial k m, reprLookup_struct (.tag p) trivial k m⟩
  case commit p => exact ⟨lookup_struct (.commit p) trivial k m, reprLookup_struct (.commit p) trivial k m⟩

theorem lookup_no_panic (v : Own) (k : Bytes) : v.lookup k ≠ .panic ∧ v.reprLookup k ≠ .panic := by
  cases v
  case tree t => constructor <;> simp only [Own.lookup, Own.reprLookup] <;> split <;> simp
  case person p =>
    rw [Props.iter_lookup (.person p) trivial, Props.iter_reprLookup (.person p) trivial]
    constructor <;> repeat' split
    all_goals simp
  case treeEntry p =>
    rw [Props.iter_lookup (.treeEntry p) trivial, Props.iter_reprLookup (.treeEntry p) trivial]
    constructor <;> repeat' split
    all_goals simp
  case tag p =>
    rw [Props.iter_lookup (.tag p) trivial, Props.iter_reprLookup (.tag p) trivial]
    constructor <;> repeat' split
    all_goals simp
  case commit p =>
    rw [Props.iter_lookup (.commit p) trivial, Props.iter_reprLookup (.commit p) trivial]
    constructor <;> repeat' split
    all_goals simp
  all_goals simp [Own.lookup, Own.reprLookup]

/-! ## One segment -/

/-- The segment lookup by kind of node. -/
theorem lookupSegment_kind (v : Own) (g : Seg) :
    v.lookupSegment g = (match v.kind with
      | .map => v.lookup g.string
      | .list => g.index >>= v.lookupIndex
      | _ => .err .wrongKind) ∧
    v.reprLookupSegment g = (match v.kind with
      | .map => v.reprLookup g.string
      | .list => g.index >>= v.reprLookupIndex
      | _ => .err .wrongKind) := by
  cases v <;> exact ⟨rfl, rfl⟩

theorem segment_ok_list (g : Seg) (f : Int → Res Node) (xs : List Node) (m : Node)
    (hf : ∀ i, f i = .ok m ↔ ∃ n : Nat, i = n ∧ xs[n]? = some m) :
    (g.index >>= f) = .ok m ↔ ∃ n : Nat, xs[n]? = some m ∧ StandsFor g n := by
  rw [Res.bind_eq_ok]
  constructor
  · rintro ⟨i, hi, hfi⟩
    obtain ⟨n, rfl, hn⟩ := (hf i).1 hfi
    exact ⟨n, hn, (index_ok _ _).1 hi⟩
  · rintro ⟨n, hn, hi⟩
    exact ⟨n, (index_ok _ _).2 hi, (hf n).2 ⟨n, rfl, hn⟩⟩

theorem segment_panic_list (g : Seg) (f : Int → Res Node) (hf : ∀ i, f i = .panic ↔ i < 0) :
    (g.index >>= f) = .panic ↔ ∃ i, StandsFor g i ∧ i < 0 := by
  rw [Res.bind_eq_panic]
  constructor
  · rintro (h | ⟨i, hi, hfi⟩)
    · exact absurd h (index_no_panic g)
    · exact ⟨i, (index_ok _ _).1 hi, (hf i).1 hfi⟩
  · rintro ⟨i, hi, hn⟩
    exact .inr ⟨i, (index_ok _ _).2 hi, (hf i).2 hn⟩

/-- Iteration by kind of node. -/
theorem iterators_kind (n : Node) (v : Own) (h : NodeOf n v) :
    (n.mapIterator ≠ none ↔ v.kind = .map) ∧ (n.listIterator ≠ none ↔ v.kind = .list) := by
  rcases h with rfl | rfl <;> simp [Node.mapIterator, Node.listIterator]

theorem child_map (n : Node) (g : Seg) (m : Node) (es : List (Bytes × Node))
    (h : n.mapIterator = some es) (hl : n.listIterator = none) :
    Child n g m ↔ (g.string, m) ∈ es := by
  constructor
  · rintro (⟨es', k, h', hm, hk⟩ | ⟨xs, i, h', _, _⟩)
    · rw [h] at h'
      cases h'
      rw [(string_spells g k).2 hk]
      exact hm
    · rw [hl] at h'; cases h'
  · intro hm
    exact .entry es _ h hm ((string_spells g _).1 rfl)

theorem child_list (n : Node) (g : Seg) (m : Node) (xs : List Node)
    (h : n.listIterator = some xs) (hl : n.mapIterator = none) :
    Child n g m ↔ ∃ i : Nat, xs[i]? = some m ∧ StandsFor g i := by
  constructor
  · rintro (⟨es', k, h', hm, hk⟩ | ⟨xs', i, h', hm, hi⟩)
    · rw [hl] at h'; cases h'
    · rw [h] at h'
      cases h'
      exact ⟨i, hm, hi⟩
  · rintro ⟨i, hm, hi⟩
    exact .elem xs i h hm hi

theorem child_none (n : Node) (g : Seg) (m : Node) (h : n.mapIterator = none)
    (hl : n.listIterator = none) : ¬ Child n g m := by
  rintro (⟨_, _, h', _, _⟩ | ⟨_, _, h', _, _⟩)
  · rw [h] at h'; cases h'
  · rw [hl] at h'; cases h'

theorem segment_ok (n : Node) (v : Own) (h : NodeOf n v) (ha : Agree v) (g : Seg) (m : Node) :
    n.lookupSegment g = .ok m ↔ Child n g m := by
  obtain ⟨h1, h2⟩ := lookupSegment_kind v g
  by_cases hm : v.kind = .map
  · rcases h with rfl | rfl
    · rw [child_map _ g m v.entries (by simp [Node.mapIterator, hm]) (by simp [Node.listIterator, hm]),
        Node.lookupSegment, h1, hm]
      exact (lookup_map v hm ha _ m).1
    · rw [child_map _ g m v.reprEntries (by simp [Node.mapIterator, hm])
        (by simp [Node.listIterator, hm]), Node.lookupSegment, h2, hm]
      exact (lookup_map v hm ha _ m).2
  · by_cases hl : v.kind = .list
    · rcases h with rfl | rfl
      · rw [child_list _ g m v.elems (by simp [Node.listIterator, hl]) (by simp [Node.mapIterator, hl]),
          Node.lookupSegment, h1, hl]
        exact segment_ok_list g _ _ m fun i => lookupIndex_ok v i m
      · rw [child_list _ g m v.reprElems (by simp [Node.listIterator, hl])
          (by simp [Node.mapIterator, hl]), Node.lookupSegment, h2, hl]
        exact segment_ok_list g _ _ m fun i => reprLookupIndex_ok v i m
    · have hc : ¬ Child n g m := by
        apply child_none <;> rcases h with rfl | rfl <;> simp [Node.mapIterator, Node.listIterator, hm, hl]
      have hw : n.lookupSegment g = .err .wrongKind := by
        rcases h with rfl | rfl <;> simp only [Node.lookupSegment]
        · rw [h1]; split <;> simp_all
        · rw [h2]; split <;> simp_all
      rw [hw]
      simp [hc]

theorem segment_panic (n : Node) (v : Own) (h : NodeOf n v) (g : Seg) :
    n.lookupSegment g = .panic ↔ n.listIterator ≠ none ∧ ∃ i, StandsFor g i ∧ i < 0 := by
  obtain ⟨h1, h2⟩ := lookupSegment_kind v g
  rw [(iterators_kind n v h).2]
  by_cases hl : v.kind = .list
  · rcases h with rfl | rfl
    · rw [Node.lookupSegment, h1, hl]
      simp only [true_and]
      exact segment_panic_list g _ fun i => lookupIndex_panic v i hl
    · rw [Node.lookupSegment, h2, hl]
      simp only [true_and]
      exact segment_panic_list g _ fun i => reprLookupIndex_panic v i hl
  · have := lookup_no_panic v g.string
    have hw : n.lookupSegment g ≠ .panic := by
      rcases h with rfl | rfl <;> simp only [Node.lookupSegment]
      · rw [h1]; split <;> simp_all
      · rw [h2]; split <;> simp_all
    simp [hw, hl]

theorem representation_node (v : Own) : NodeOf v.representation v := by
  cases v <;> simp [NodeOf, Own.representation]

theorem optNode_node {α : Type} (f : α → Own) (o : Option α) (h : ∀ a, Agree (f a)) :
    optNode f o = .absent ∨ ∃ v', NodeOf (optNode f o) v' ∧ Agree v' := by
  cases o with
  | none => exact .inl rfl
  | some a => exact .inr ⟨f a, .inl rfl, h a⟩

theorem optEntry_node {α : Type} (f : α → Own) (o : Option α) (k k' : Bytes) (m : Node)
    (h : ∀ a, Agree (f a)) (hm : (k, m) ∈ optEntry k' f o) : ∃ v', NodeOf m v' ∧ Agree v' := by
  cases o with
  | none => cases hm
  | some a =>
    simp only [optEntry, List.mem_cons, Prod.mk.injEq, List.not_mem_nil, or_false] at hm
    rw [hm.2]
    exact ⟨f a, representation_node _, h a⟩

/-- What a child is: a node of the package again, or `Absent`. -/
theorem child_node (n : Node) (v : Own) (h : NodeOf n v) (g : Seg) (m : Node) (hc : Child n g m) :
    m = .absent ∨ ∃ v', NodeOf m v' ∧ Agree v' := by
  rcases hc with ⟨es, k, h', hm, _⟩ | ⟨xs, i, h', hm, _⟩
  · rcases h with rfl | rfl
    · simp only [Node.mapIterator] at h'
      split at h' <;> cases h'
      cases v <;> simp only [Own.entries, List.mem_cons, Prod.mk.injEq, List.not_mem_nil, or_false,
        List.mem_map, Prod.exists] at hm
      case tree t =>
        obtain ⟨_, e, _, rfl, rfl⟩ := hm
        exact .inr ⟨_, .inl rfl, trivial⟩
      case commit c =>
        rcases hm with ⟨_, rfl⟩ | ⟨_, rfl⟩ | ⟨_, rfl⟩ | ⟨_, rfl⟩ | ⟨_, rfl⟩ | ⟨_, rfl⟩ | ⟨_, rfl⟩ |
          ⟨_, rfl⟩ | ⟨_, rfl⟩
        case inr.inr.inr.inl => exact optNode_node _ _ fun _ => trivial
        case inr.inr.inr.inr.inl => exact optNode_node _ _ fun _ => trivial
        case inr.inr.inr.inr.inr.inl => exact optNode_node _ _ fun _ => trivial
        case inr.inr.inr.inr.inr.inr.inl => exact optNode_node _ _ fun _ => trivial
        all_goals exact .inr ⟨_, .inl rfl, trivial⟩
      case person p =>
        rcases hm with ⟨_, rfl⟩ | ⟨_, rfl⟩ | ⟨_, rfl⟩ | ⟨_, rfl⟩ <;>
          exact .inr ⟨_, .inl rfl, trivial⟩
      case treeEntry p =>
        rcases hm with ⟨_, rfl⟩ | ⟨_, rfl⟩ <;> exact .inr ⟨_, .inl rfl, trivial⟩
      case tag p =>
        rcases hm with ⟨_, rfl⟩ | ⟨_, rfl⟩ | ⟨_, rfl⟩ | ⟨_, rfl⟩ | ⟨_, rfl⟩ <;>
          exact .inr ⟨_, .inl rfl, trivial⟩
    · simp only [Node.mapIterator] at h'
      split at h' <;> cases h'
      right
      cases v <;> simp only [Own.reprEntries, List.mem_cons, Prod.mk.injEq, List.not_mem_nil, or_false,
        List.mem_map, Prod.exists] at hm
      case tree t =>
        obtain ⟨_, e, _, rfl, rfl⟩ := hm
        exact ⟨_, .inr rfl, trivial⟩
      case commit c =>
        rw [List.mem_append, List.mem_append, List.mem_append, List.mem_append, List.mem_append] at hm
        simp only [List.mem_cons, Prod.mk.injEq, List.not_mem_nil, or_false] at hm
        rcases hm with ((((hm | hm) | hm) | hm) | hm) | hm
        · rcases hm with ⟨_, rfl⟩ | ⟨_, rfl⟩ | ⟨_, rfl⟩
          · exact ⟨_, .inl rfl, trivial⟩
          · exact ⟨_, .inr rfl, trivial⟩
          · exact ⟨_, .inl rfl, trivial⟩
        · refine optEntry_node _ _ _ _ _ ?_ hm; exact fun _ => trivial
        · refine optEntry_node _ _ _ _ _ ?_ hm; exact fun _ => trivial
        · refine optEntry_node _ _ _ _ _ ?_ hm; exact fun _ => trivial
        · refine optEntry_node _ _ _ _ _ ?_ hm; exact fun _ => trivial
        · rcases hm with ⟨_, rfl⟩ | ⟨_, rfl⟩ <;> exact ⟨_, .inr rfl, trivial⟩
      case person p =>
        rcases hm with ⟨_, rfl⟩ | ⟨_, rfl⟩ | ⟨_, rfl⟩ | ⟨_, rfl⟩ <;>
          exact ⟨_, .inl rfl, trivial⟩
      case treeEntry p =>
        rcases hm with ⟨_, rfl⟩ | ⟨_, rfl⟩ <;> exact ⟨_, .inl rfl, trivial⟩
      case tag p =>
        rcases hm with ⟨_, rfl⟩ | ⟨_, rfl⟩ | ⟨_, rfl⟩ | ⟨_, rfl⟩ | ⟨_, rfl⟩
        case inr.inr.inr.inl => exact ⟨_, .inr rfl, trivial⟩
        all_goals exact ⟨_, .inl rfl, trivial⟩
  · right
    rcases h with rfl | rfl <;> simp only [Node.listIterator] at h' <;> split at h' <;> cases h' <;>
      cases v <;> simp only [Own.elems, Own.reprElems, List.getElem?_map, List.getElem?_nil,
        Option.map_eq_some_iff, reduceCtorEq] at hm <;> obtain ⟨a, _, rfl⟩ := hm
    · exact ⟨_, .inl rfl, trivial⟩
    · exact ⟨_, .inl rfl, trivial⟩
    · exact ⟨_, .inl rfl, trivial⟩
    · exact ⟨_, .inl rfl, trivial⟩
    · exact ⟨_, .inl rfl, trivial⟩
    · exact ⟨_, .inr rfl, trivial⟩

/-! ## Paths -/

theorem absent_segment (g : Seg) : Node.absent.lookupSegment g = .err .wrongKind := rfl

theorem walk_absent (gs : List Seg) (m : Node) :
    (Node.absent.walk gs = .ok m ↔ Reach .absent gs m) ∧ Node.absent.walk gs ≠ .panic := by
  cases gs with
  | nil =>
    refine ⟨⟨?_, ?_⟩, by simp [Node.walk]⟩
    · intro h; cases h; exact .here _
    · intro h; cases h; rfl
  | cons g gs =>
    refine ⟨⟨?_, ?_⟩, by simp [Node.walk, absent_segment]⟩
    · intro h; simp [Node.walk, absent_segment] at h
    · intro h
      cases h with
      | step _ _ m' _ _ hc _ => exact absurd hc (child_none _ _ _ rfl rfl)

theorem walk_ok (gs : List Seg) : ∀ (n : Node) (v : Own), NodeOf n v → Agree v → ∀ m,
    n.walk gs = .ok m ↔ Reach n gs m := by
  induction gs with
  | nil =>
    intro n v _ _ m
    constructor
    · intro h; cases h; exact .here _
    · intro h; cases h; rfl
  | cons g gs ih =>
    intro n v hn ha m
    rw [Node.walk, Res.bind_eq_ok]
    have key : ∀ m', Child n g m' → (m'.walk gs = .ok m ↔ Reach m' gs m) := by
      intro m' hc
      rcases child_node n v hn g m' hc with rfl | ⟨v', hn', ha'⟩
      · exact (walk_absent gs m).1
      · exact ih m' v' hn' ha' m
    constructor
    · rintro ⟨m', h1, h2⟩
      have hc := (segment_ok n v hn ha g m').1 h1
      exact .step _ _ m' _ _ hc ((key m' hc).1 h2)
    · intro h
      cases h with
      | step _ _ m' _ _ hc hr =>
        exact ⟨m', (segment_ok n v hn ha g m').2 hc, (key m' hc).2 hr⟩

theorem walk_panic (gs : List Seg) : ∀ (n : Node) (v : Own), NodeOf n v → Agree v →
    (n.walk gs = .panic ↔ ∃ p g q l xs i, gs = p ++ g :: q ∧ Reach n p l ∧
      l.listIterator = some xs ∧ StandsFor g i ∧ i < 0) := by
  induction gs with
  | nil =>
    intro n v _ _
    constructor
    · intro h; simp [Node.walk] at h
    · rintro ⟨p, g, q, l, xs, i, h, _⟩
      cases p <;> cases h
  | cons g gs ih =>
    intro n v hn ha
    rw [Node.walk, Res.bind_eq_panic, segment_panic n v hn]
    have key : ∀ m', Child n g m' → (m'.walk gs = .panic ↔ ∃ p g q l xs i, gs = p ++ g :: q ∧
        Reach m' p l ∧ l.listIterator = some xs ∧ StandsFor g i ∧ i < 0) := by
      intro m' hc
      rcases child_node n v hn g m' hc with rfl | ⟨v', hn', ha'⟩
      · simp only [(walk_absent gs .absent).2, false_iff]
        rintro ⟨p, g', q, l, xs, i, _, hr, hl, _⟩
        cases hr with
        | here _ => cases hl
        | step _ _ m' _ _ hc _ => exact absurd hc (child_none _ _ _ rfl rfl)
      · exact ih m' v' hn' ha'
    constructor
    · rintro (⟨hl, i, hi, hn⟩ | ⟨m', h1, h2⟩)
      · cases hx : n.listIterator with
        | none => exact absurd hx hl
        | some xs => exact ⟨[], g, gs, n, xs, i, rfl, .here n, hx, hi, hn⟩
      · have hc := (segment_ok n v hn ha g m').1 h1
        obtain ⟨p, g', q, l, xs, i, rfl, hr, hx⟩ := (key m' hc).1 h2
        exact ⟨g :: p, g', q, l, xs, i, rfl, .step _ _ m' _ _ hc hr, hx⟩
    · rintro ⟨p, g', q, l, xs, i, he, hr, hx, hi, hneg⟩
      cases p with
      | nil =>
        cases he
        cases hr
        exact .inl ⟨by rw [hx]; simp, i, hi, hneg⟩
      | cons a p =>
        cases he
        cases hr with
        | step _ _ m' _ _ hc hr =>
          exact .inr ⟨m', (segment_ok n v hn ha g m').2 hc,
            (key m' hc).2 ⟨p, g', q, l, xs, i, rfl, hr, hx, hi, hneg⟩⟩

/-! ## List iterators -/

theorem listItr_run {α : Type} (f : α → Own) (x : List α) :
    ∀ (n idx : Nat), x.length ≤ n + idx →
      ListItr.run (ListItr.next f) n ⟨x, idx⟩
        = .ok (((x.drop idx).zipIdx idx).map fun p => ((p.2 : Int), Node.own (f p.1))) ∧
      ListItr.run (ListItr.reprNext f) n ⟨x, idx⟩
        = .ok (((x.drop idx).zipIdx idx).map fun p => ((p.2 : Int), (f p.1).representation)) := by
  intro n
  induction n with
  | zero =>
    intro idx h
    have hd : x.drop idx = [] := List.drop_of_length_le (by omega)
    simp [ListItr.run, ListItr.done, show x.length ≤ idx by omega, hd]
  | succ n ih =>
    intro idx h
    by_cases hi : x.length ≤ idx
    · have hd : x.drop idx = [] := List.drop_of_length_le hi
      simp [ListItr.run, ListItr.done, hi, hd]
    · have hi : idx < x.length := by omega
      have hd : x.drop idx = x[idx] :: x.drop (idx + 1) := List.drop_eq_getElem_cons hi
      have hg : goIndex x idx = .ok x[idx] :=
        (goIndex_ok _ _ _).2 ⟨idx, rfl, List.getElem?_eq_getElem hi⟩
      have hnx : ListItr.next f ⟨x, idx⟩
          = .ok (((idx : Int), .own (f x[idx])), ⟨x, idx + 1⟩) := by
        simp [ListItr.next, hg, show ¬ x.length ≤ idx by omega]
      obtain ⟨h1, h2⟩ := ih (idx + 1) (by omega)
      constructor
      · rw [ListItr.run, hnx, Res.bind_ok]
        simp only [ListItr.done, ge_iff_le, decide_eq_true_eq, if_neg (show ¬ x.length ≤ idx by omega)]
        rw [h1, hd]
        rfl
      · rw [ListItr.run, ListItr.reprNext, hnx, Res.bind_ok]
        simp only [ListItr.done, ge_iff_le, decide_eq_true_eq, if_neg (show ¬ x.length ≤ idx by omega)]
        rw [Res.bind_ok]
        simp only
        rw [h2, hd]
        rfl

end Verif
