import Verif.Spec.TreeHandles
import Verif.Proofs.HandlesNeat
import Verif.Proofs.HandlesRun
import Verif.Props.TreePlay

/-!
# The tree assembler in memory and the tree assembler with one child
-/

namespace Verif.Handles

open Calls Spec TreeSt

/-! ## The map -/

/-- The pointers of the map, which were made when the rows were: all to the entries
of rows in arrays below `B`. -/
inductive MapOk (B : Nat) (μ : Mem) : List Row → List (Bytes × Ptr) → Prop where
  | nil : MapOk B μ [] []
  | snoc {rows : List Row} {mm : List (Bytes × Ptr)} {k : Bytes} {e : TreeEntry} {r : Nat} {xs : List MVal}
      {y : MVal} : MapOk B μ rows mm → r < B → μ.at' r = .arr xs →
      xs[rows.length]? = some (.struct [y, entryM e]) →
      MapOk B μ (rows ++ [(k, e)]) ((k, (r, [rows.length, 1])) :: mm)

theorem mapOk_mono {B B' : Nat} {μ : Mem} {rows : List Row} {mm : List (Bytes × Ptr)} (hB : B ≤ B')
    (h : MapOk B μ rows mm) : MapOk B' μ rows mm := by
  induction h with
  | nil => exact .nil
  | snoc _ h1 h2 h3 ih => exact .snoc ih (by omega) h2 h3

/-- What happens outside the first rows of the arrays does not matter. -/
theorem mapOk_frame {B n : Nat} {μ μ' : Mem} {rows : List Row} {mm : List (Bytes × Ptr)} (h : MapOk B μ rows mm)
    (hn : rows.length ≤ n) (hf : ∀ r xs, r < B → μ.at' r = .arr xs →
      ∃ xs', μ'.at' r = .arr xs' ∧ ∀ i, i < n → xs'[i]? = xs[i]?) : MapOk B μ' rows mm := by
  induction h with
  | nil => exact .nil
  | @snoc rows mm k e r xs y _ h1 h2 h3 ih =>
    simp only [List.length_append, List.length_singleton] at hn
    obtain ⟨xs', h4, h5⟩ := hf r xs h1 h2
    exact .snoc (ih (by omega)) h1 h4 (by rw [h5 _ (by omega)]; exact h3)

theorem mapOk_has {B : Nat} {μ : Mem} {rows : List Row} {mm : List (Bytes × Ptr)} (h : MapOk B μ rows mm) (k : Bytes) :
    has mm k = true ↔ k ∈ rows.map Prod.fst := by
  induction h with
  | nil => simp [has]
  | @snoc rows mm k' e r xs y _ h1 h2 h3 ih =>
    simp only [has, List.any_cons, Bool.or_eq_true, decide_eq_true_eq, List.map_append, List.map_cons, List.map_nil,
      List.mem_append, List.mem_singleton] at ih ⊢
    rw [ih]
    constructor
    · rintro (h | h)
      · exact .inr h.symm
      · exact .inl h
    · rintro (h | h)
      · exact .inr h
      · exact .inl h.symm

theorem loadEntry_M (e : TreeEntry) : loadEntry (entryM e) = e := rfl

theorem loadRow_M (r : Row) : loadRow (rowM r) = r := rfl

theorem mapOk_load {B : Nat} {μ : Mem} {rows : List Row} {mm : List (Bytes × Ptr)} (h : MapOk B μ rows mm) :
    mm.map (fun x => (x.1, loadEntry (μ.read x.2))) = rows.reverse := by
  induction h with
  | nil => rfl
  | @snoc rows mm k e r xs y _ h1 h2 h3 ih =>
    rw [List.map_cons, ih, List.reverse_append]
    simp only [List.reverse_singleton, List.singleton_append, List.cons.injEq, and_true]
    simp only [Mem.read, h2, MVal.get, h3, Option.getD_some]
    rfl

/-! ## The table -/

/-- The array `xs` behind the table begins with these rows. -/
structure Tab (μ : Mem) (t : Slice) (rows : List Row) (xs : List MVal) : Prop where
  here : μ.at' t.arr = .arr xs
  root : t.arr < μ.next
  len : t.len ≤ xs.length
  rows : ∀ (i : Nat) (r : Row), rows[i]? = some r → xs[i]? = some (rowM r)

theorem tab_items {μ : Mem} {t : Slice} {rows : List Row} {xs : List MVal} (h : Tab μ t rows xs) :
    items μ t.arr = xs := by
  unfold items
  rw [h.here]

theorem append_fields (grow : Nat → Nat) (r : MVal) (s : TreeSt) :
    (s.append grow r).mark = s.mark ∧ (s.append grow r).map = s.map ∧ (s.append grow r).state = s.state ∧
    (s.append grow r).cm = s.cm ∧ (s.append grow r).kw = s.kw ∧ (s.append grow r).va = s.va ∧
    (s.append grow r).tab.len = s.tab.len + 1 := by
  unfold TreeSt.append
  dsimp only
  split <;> exact ⟨rfl, rfl, rfl, rfl, rfl, rfl, rfl⟩

/-- A row is added. -/
theorem append_tab (grow : Nat → Nat) (r : MVal) {s : TreeSt} {rows : List Row} {xs : List MVal} {mm : List (Bytes × Ptr)}
    (h : Tab s.mem s.tab rows xs) (hl : s.tab.len = rows.length) (hm : MapOk s.mem.next s.mem rows mm) :
    ∃ xs', Tab (s.append grow r).mem (s.append grow r).tab rows xs' ∧ xs'[rows.length]? = some r ∧
      s.mem.next ≤ (s.append grow r).mem.next ∧
      MapOk (s.append grow r).mem.next (s.append grow r).mem rows mm := by
  have hi := tab_items h
  have hlen := h.len
  have htake : ∀ (ys : List MVal) (i : Nat), i < rows.length → (xs.take s.tab.len ++ r :: ys)[i]? = xs[i]? := by
    intro ys i hi
    rw [List.getElem?_append_left (by rw [List.length_take]; omega), List.getElem?_take_of_lt (by omega)]
  have hlast : ∀ (ys : List MVal), (xs.take s.tab.len ++ r :: ys)[rows.length]? = some r := by
    intro ys
    rw [List.getElem?_append_right (by rw [List.length_take]; omega), List.length_take]
    have : rows.length - min s.tab.len xs.length = 0 := by omega
    rw [this]; rfl
  have hrows : ∀ (ys : List MVal) (i : Nat) (x : Row), rows[i]? = some x →
      (xs.take s.tab.len ++ r :: ys)[i]? = some (rowM x) := by
    intro ys i x hx
    rw [htake ys i (List.getElem?_eq_some_iff.1 hx).1]
    exact h.rows i x hx
  unfold TreeSt.append
  dsimp only
  rw [hi]
  split
  · refine ⟨_, ⟨by simp [Mem.write, MVal.set], h.root, ?_, hrows (xs.drop (s.tab.len + 1))⟩, hlast _, Nat.le_refl _, ?_⟩
    · simp only [List.length_append, List.length_take, List.length_cons]; omega
    · refine mapOk_frame (n := rows.length) hm (Nat.le_refl _) fun q ys hq hy => ?_
      by_cases he : q = s.tab.arr
      · subst he
        rw [h.here] at hy
        cases hy
        exact ⟨_, by simp [Mem.write, MVal.set]; rfl, fun i hi => htake _ i hi⟩
      · exact ⟨ys, by rw [write_other _ _ he]; exact hy, fun _ _ => rfl⟩
  · refine ⟨_, ⟨by simp [Mem.alloc], Nat.lt_succ_self _, ?_, hrows []⟩, hlast [], Nat.le_succ _, ?_⟩
    · simp only [List.length_append, List.length_take, List.length_cons, List.length_nil]; omega
    · refine mapOk_mono (Nat.le_succ _) (mapOk_frame (n := rows.length) hm (Nat.le_refl _) fun q ys hq hy => ?_)
      exact ⟨ys, by rw [alloc_old _ _ hq]; exact hy, fun _ _ => rfl⟩

/-! ## The relation -/

/-- The tree assembler between entries. -/
structure AtRest (repr : Bool) (s : TreeSt) (rows : List Row) : Prop where
  mark : s.mark = .midvalue
  cm : s.cm = .absent
  kw : s.kw = none
  tab : ∃ xs, Tab s.mem s.tab rows xs
  len : s.tab.len = rows.length
  map : ∃ mm, s.map = some mm ∧ MapOk s.mem.next s.mem rows mm
  va : Idle true .treeEntry s.va
  off : repr = false → Off s.va

/-- The tree assembler with a row without a value; `y` and `v` are its key and value in
memory. -/
structure Open (B : Nat) (s : TreeSt) (rows : List Row) (mm : List (Bytes × Ptr)) (y v : MVal) : Prop where
  mark : s.mark = .midvalue
  tab : ∃ xs, Tab s.mem s.tab rows xs ∧ xs[rows.length]? = some (.struct [y, v])
  len : s.tab.len = rows.length + 1
  bound : B ≤ s.mem.next
  arr : s.tab.arr < B
  map : MapOk B s.mem rows mm

/-- The tree assembler in memory and the one in `Verif.Model.TreeCalls`. -/
inductive TreeSim (repr : Bool) : TreeSt → TreeFrame → Prop where
  | idle : TreeSim repr .fresh .fresh
  | rest {s : TreeSt} {a : TreeFrame} {rows : List Row} : Props.Holds rows a → a.s.state = .initial →
      a.child = none → a.s.m = .midvalue → s.state = .initial → AtRest repr s rows → TreeSim repr s a
  | key {s : TreeSt} {a : TreeFrame} {rows : List Row} {mm : List (Bytes × Ptr)} {b : Bytes} : a.s.Inv →
      a.s.map ≠ none → a.s.state = .midKey → a.s.cm = .absent → a.s.ka = some a.s.last → 0 < a.s.len →
      a.s.committed = rows → a.child = none → a.s.m = .midvalue → s.state = .midKey → s.cm = .absent →
      s.kw = some (s.last 0) → s.map = some mm → Open s.mem.next s rows mm (.text b) (T.zeroM .treeEntry) →
      Idle true .treeEntry s.va → (repr = false → Off s.va) → TreeSim repr s a
  | keyed {s : TreeSt} {a : TreeFrame} {rows : List Row} {mm : List (Bytes × Ptr)} {k : Bytes} {v : TreeEntry} :
      a.s.Inv → a.s.map ≠ none → a.s.state = .midKey → a.s.cm = .value → a.s.table = rows ++ [(k, v)] →
      a.child = none → a.s.m = .midvalue → s.state = .midKey → s.cm = .value → s.map = some mm →
      Open s.mem.next s rows mm (.text k) (T.zeroM .treeEntry) → Idle true .treeEntry s.va →
      (repr = false → Off s.va) → TreeSim repr s a
  | mid {s : TreeSt} {a : TreeFrame} {rows : List Row} {mm : List (Bytes × Ptr)} {k : Bytes} {v : MVal} {ch : Frame}
      {c : List (Nat × Call)} {B : Nat} {F : Foot} : Props.Mid k rows a ch → a.s.m = .midvalue →
      Partial .treeEntry ch c → (∀ d u x, (d, Call.assignSelf u x) ∈ c → Complete u x) → s.state = .midValue →
      s.kw = none → s.map = some ((k, s.last 1) :: mm) → Open B s rows mm (.text k) v →
      s.va.w = some (s.last 1) → s.va.m = .parent → Sim s.mem s.cm s.va ch F → (∀ r, F r → B ≤ r) →
      (repr = false → Neat false s.va ch) → TreeSim repr s a
  | done {s : TreeSt} {a : TreeFrame} {rows : List Row} : a.s.Inv → a.s.state = .finished → a.s.m = .value →
      a.s.committed = rows → a.child = none → a.s.map ≠ none → s.state = .finished → s.mark = .value →
      AtRest repr { s with mark := .midvalue } rows → TreeSim repr s a

theorem tree_marks {repr : Bool} {s : TreeSt} {a : TreeFrame} (h : TreeSim repr s a) :
    s.mark = a.s.m ∧ s.map.isSome = a.s.map.isSome := by
  cases h with
  | idle => exact ⟨rfl, rfl⟩
  | rest h1 h2 h3 h4 h5 h6 =>
    obtain ⟨mm, hm, -⟩ := h6.map
    exact ⟨h6.mark.trans h4.symm, by rw [h1.isSome, hm]; rfl⟩
  | key h1 h2 h3 h4 h5 h6 h7 h8 h9 h10 h11 h12 h13 h14 =>
    exact ⟨h14.mark.trans h9.symm, by rw [Option.isSome_iff_ne_none.2 h2, h13]; rfl⟩
  | keyed h1 h2 h3 h4 h5 h6 h7 h8 h9 h10 h11 =>
    exact ⟨h11.mark.trans h7.symm, by rw [Option.isSome_iff_ne_none.2 h2, h10]; rfl⟩
  | mid h1 h2 h3 h4 h5 h6 h7 h8 =>
    obtain ⟨e, he, -⟩ := h1.row
    refine ⟨h8.mark.trans h2.symm, ?_⟩
    rw [Option.isSome_iff_ne_none.2 (Props.map_of_committed h1.inv he), h7]; rfl
  | done h1 h2 h3 h4 h5 h6 h7 h8 h9 =>
    obtain ⟨mm, hm, -⟩ := h9.map
    replace hm : s.map = some mm := hm
    exact ⟨h8.trans h3.symm, by rw [Option.isSome_iff_ne_none.2 h6, hm]; rfl⟩

/-! ## Calls on the tree assembler -/

/-- The outcome `r` of a call in memory is the outcome `q` in `Verif.Model.TreeCalls`. -/
def TreeSteps (repr : Bool) (r : TreeRes) (q : TreeOut) : Prop :=
  match q with
  | .ok a => ∃ s, r = .ok s ∧ TreeSim repr s a
  | .err e a => ∃ s, r = .err e s ∧ TreeSim repr s a
  | .panic => r = .panic
  | .noHandle => True

theorem repT_entry {μ : Mem} {e : TreeEntry} {x : MVal} {F : Foot} (h : RepT μ .treeEntry (treeEntryVal e) x F) :
    x = entryM e := by
  obtain ⟨l, xs, G, h1, rfl, h3, h4, -, -, h7⟩ := (repT_struct rfl).1 h
  cases h1
  match xs, h4 with
  | [p, q], _ =>
    have h8 := h7 0 _ _ _ rfl rfl rfl
    have h9 := h7 1 _ _ _ rfl rfl rfl
    obtain ⟨b, hb, rfl⟩ := h8
    obtain ⟨l, hl, rfl⟩ := h9
    cases hb
    cases hl
    rfl

theorem last_of {s : TreeSt} {n : Nat} (h : s.tab.len = n + 1) (i : Nat) : s.last i = (s.tab.arr, [n, i]) := by
  unfold TreeSt.last
  rw [h]
  rfl

/-- The place of the value of an open row. -/
theorem open_read {B : Nat} {s : TreeSt} {rows : List Row} {mm : List (Bytes × Ptr)} {y v : MVal}
    (h : Open B s rows mm y v) : s.mem.read (s.last 1) = v ∧ s.mem.read (s.last 0) = y ∧
      Valid (s.last 1).2 (s.mem.at' (s.last 1).1) ∧ Valid (s.last 0).2 (s.mem.at' (s.last 0).1) := by
  obtain ⟨xs, h1, h2⟩ := h.tab
  rw [last_of h.len, last_of h.len]
  simp only [Mem.read, h1.here, MVal.get, h2, Option.getD_some, List.getElem?_cons_succ, List.getElem?_cons_zero]
  exact ⟨trivial, trivial, ⟨_, h2, _, rfl, trivial⟩, ⟨_, h2, _, rfl, trivial⟩⟩

/-- The state check. -/
theorem tree_ready {repr : Bool} {s : TreeSt} {a : TreeFrame} (h : TreeSim repr s a) (hb : a.s.map.isSome = true) :
    (s.ready = none ∧ a.s.ready = none) ∨ ∃ s0 a0 rows, s.ready = some s0 ∧ a.s.ready = some a0 ∧
      Props.Holds rows ⟨a0, none⟩ ∧ a0.state = .initial ∧ a0.m = .midvalue ∧ s0.state = .initial ∧
      AtRest repr s0 rows := by
  unfold TreeSt.ready TreeAsm.ready
  cases h with
  | idle => cases hb
  | rest h1 h2 h3 h4 h5 h6 =>
    rw [h2, h5]
    exact .inr ⟨_, _, _, rfl, rfl, ⟨h1.between, h1.rows, h1.m⟩, h2, h4, h5, h6⟩
  | key h1 h2 h3 h4 h5 h6 h7 h8 h9 h10 => rw [h3, h10]; exact .inl ⟨rfl, rfl⟩
  | keyed h1 h2 h3 h4 h5 h6 h7 h8 => rw [h3, h8]; exact .inl ⟨rfl, rfl⟩
  | done h1 h2 h3 h4 h5 h6 h7 => rw [h2, h7]; exact .inl ⟨rfl, rfl⟩
  | @mid _ _ rows mm k v ch c B F h1 h2 h3 h4 h5 h6 h7 h8 h9 h10 h11 h12 h13 =>
    rw [h1.state, h5]
    dsimp only
    have hmk : s.cm = ch.m := (sim_head h11).mark
    unfold TreeSt.tidyValue TreeAsm.tidyValue
    rw [hmk, h1.mark]
    by_cases hm : ch.m = .value
    · rw [if_pos hm, if_pos hm]
      refine .inr ⟨_, _, rows ++ [(k, entryOf ch.w)], rfl, rfl, ?_, rfl, h2, rfl, ?_⟩
      · have hr : a.s.ready = some { a.s with va := none, cm := .absent, state := .initial } := by
          unfold TreeAsm.ready TreeAsm.tidyValue
          rw [h1.state, h1.mark, hm]
          rfl
        obtain ⟨i1, i2, i3, i4, i5, i6, i7⟩ := TreeAsm.ready_inv h1.inv hr
        obtain ⟨e, he, hw⟩ := h1.row
        have := hw hm
        subst this
        exact ⟨⟨i1, Props.map_of_committed i1 (i4.trans he), .inl ⟨rfl, rfl⟩⟩, i4.trans he, h1.m⟩
      · obtain ⟨e, he⟩ := Props.complete_entry (Props.makes_complete (partial_value h3 hm) h4)
        obtain ⟨q, hq, -, hrep⟩ := sim_value h3 h11 hm
        rw [h9] at hq
        cases hq
        rw [partial_ty h3, he] at hrep
        have hv := repT_entry hrep
        rw [(open_read h8).1] at hv
        subst hv
        have hidle := sim_idle h11 (partial_done h3 hm)
        rw [partial_ty h3] at hidle
        have hpl : s.last 1 = (s.tab.arr, [rows.length, 1]) := last_of h8.len 1
        obtain ⟨xs, hx1, hx2⟩ := h8.tab
        rw [he, Props.entryOf_val]
        refine ⟨h8.mark, rfl, h6, ⟨xs, hx1.here, hx1.root, hx1.len, ?_⟩, ?_, ⟨_, h7, ?_⟩, ?_, ?_⟩
        · intro i r hr
          by_cases hi : i < rows.length
          · rw [List.getElem?_append_left hi] at hr
            exact hx1.rows i r hr
          · rw [List.getElem?_append_right (by omega)] at hr
            have : i - rows.length = 0 := by
              have := (List.getElem?_eq_some_iff.1 hr).1
              simp at this; omega
            rw [this] at hr
            cases hr
            have : i = rows.length := by omega
            subst this
            exact hx2
        · rw [List.length_append, List.length_singleton]; exact h8.len
        · rw [hpl]
          exact .snoc (mapOk_mono h8.bound h8.map) (Nat.lt_of_lt_of_le h8.arr h8.bound) hx1.here hx2
        · exact idle_reset _ _ (idle_park hidle)
        · intro hn
          refine off_reset (done_park h3 (h13 hn) hm ?_ h11 h10)
          rw [(sim_head h11).ty, partial_ty h3]
          nofun
    · rw [if_neg hm, if_neg hm]
      exact .inl ⟨rfl, rfl⟩

theorem holds_ready {a : TreeAsm} (h : a.state = .initial) : a.ready = some a := by
  unfold TreeAsm.ready
  rw [h]

/-- The entry assembler is handed out with a new row. -/
theorem tree_lent {repr : Bool} {s : TreeSt} {a : TreeFrame} {rows : List Row} {mm : List (Bytes × Ptr)} {k : Bytes}
    (h1 : Props.Mid k rows a (fresh .treeEntry)) (h2 : a.s.m = .midvalue)
    (ho : Open s.mem.next s rows mm (.text k) (T.zeroM .treeEntry)) (hi : Idle true .treeEntry s.va)
    (hoff : repr = false → Off s.va) {s' : TreeSt} (hs : s' = { s with
      state := .midValue, kw := none, cm := .absent, map := some ((k, s.last 1) :: mm)
      va := s.va.lend (some (s.last 1)) .parent }) : TreeSim repr s' a := by
  subst hs
  obtain ⟨r1, r2, r3, r4⟩ := open_read ho
  refine .mid (F := fun _ => False) (c := []) h1 h2 (.idle .treeEntry) (fun d u x hx => by simp at hx) rfl rfl rfl
    ⟨ho.mark, ho.tab, ho.len, ho.bound, ho.arr, ho.map⟩ ?_ ?_ (sim_fresh .parent hi (fun _ h => h.elim) ?_)
    (fun _ h => h.elim) fun hn => neat_lend _ _ (hoff hn)
  · cases s.va; rfl
  · cases s.va; rfl
  · refine ⟨⟨r3, Nat.lt_of_lt_of_le ho.arr ho.bound, id⟩, ?_⟩
    rw [r1]
    exact repT_zero _ _ _

/-- A row is added to a tree assembler between entries. -/
theorem rest_append {repr : Bool} {s : TreeSt} {rows : List Row} (grow : Nat → Nat) (y : MVal) (h : AtRest repr s rows) :
    ∃ mm, s.map = some mm ∧ Open (s.append grow (.struct [y, T.zeroM .treeEntry])).mem.next
      (s.append grow (.struct [y, T.zeroM .treeEntry])) rows mm y (T.zeroM .treeEntry) := by
  obtain ⟨xs, ht⟩ := h.tab
  obtain ⟨mm, hm, hmm⟩ := h.map
  obtain ⟨xs', g1, g2, g3, g4⟩ := append_tab grow (.struct [y, T.zeroM .treeEntry]) ht h.len hmm
  obtain ⟨f1, f2, f3, f4, f5, f6, f7⟩ := append_fields grow (.struct [y, T.zeroM .treeEntry]) s
  exact ⟨mm, hm, f1.trans h.mark, ⟨xs', g1, g2⟩, by rw [f7, h.len], Nat.le_refl _, g1.root, g4⟩

theorem tree_assembleEntry {repr : Bool} {s : TreeSt} {a : TreeFrame} (grow : Nat → Nat) (pol : TreeAsm → Nat)
    (hint : Int) (h : TreeSim repr s a) (k : Bytes) :
    TreeSteps repr (s.call grow hint (.assembleEntry k)) (a.call pol hint (.assembleEntry k)) := by
  unfold TreeSt.call
  dsimp only
  rw [(tree_marks h).2]
  by_cases hb : a.s.map.isSome = true
  · rw [if_pos hb]
    rcases tree_ready h hb with ⟨h1, h2⟩ | ⟨s0, a0, rows, h1, h2, h3, h4, h5, h6, h7⟩
    · simp only [TreeFrame.call, if_pos hb, TreeSt.assembleEntry, TreeAsm.assembleEntry, h1, h2]
      rfl
    · have hcall : a.call pol hint (.assembleEntry k) =
          TreeFrame.callAt pol hint ⟨a0, none⟩ 0 (.assembleEntry k) := by
        simp only [TreeFrame.callAt, TreeFrame.call, if_pos hb, if_pos h3.isSome]
        unfold TreeAsm.assembleEntry
        rw [h2, holds_ready h4]
      rw [hcall]
      unfold TreeSt.assembleEntry
      rw [h1]
      dsimp only
      obtain ⟨mm, hm, hmm⟩ := h7.map
      have hhas := mapOk_has hmm k
      rw [hm, Option.getD_some]
      rcases Props.begin_entry pol hint h3 k with ⟨hk, a', ha'⟩ | ⟨hk, a', ha', hmid⟩
      · rw [if_pos (hhas.2 hk), ha']
        refine ⟨_, rfl, ?_⟩
        simp only [TreeFrame.callAt, TreeFrame.call, if_pos h3.isSome] at ha'
        obtain ⟨x, hx, rfl⟩ := Props.ret_err ha'
        obtain ⟨i1, i2, i3, i4, i5, i6, i7, i8⟩ := TreeAsm.assembleEntry_err h3.between.1 hx
        rw [holds_ready h4] at i7
        cases i7
        exact .rest h3 h4 rfl h5 h6 h7
      · rw [if_neg (fun hc => hk (hhas.1 hc)), ha']
        obtain ⟨f1, f2, f3, f4, f5, f6, f7⟩ := append_fields grow (rowM (k, Row.zero.2)) s0
        obtain ⟨mm', hm', ho⟩ := rest_append grow (.text k) h7
        rw [hm] at hm'
        cases hm'
        rw [f2, hm]
        refine ⟨_, rfl, tree_lent (s := s0.append grow (rowM (k, Row.zero.2))) hmid ?_ ho (by rw [f6]; exact h7.va)
          (fun hn => by rw [f6]; exact h7.off hn) ?_⟩
        · simp only [TreeFrame.callAt, TreeFrame.call, if_pos h3.isSome] at ha'
          obtain ⟨x, hx, rfl⟩ := Props.ret_ok ha'
          exact (TreeAsm.assembleEntry_ok h3.between.1 hx).2.2.2.2.2.2.trans h5
        · have e1 := f5.trans h7.kw
          have e2 := f4.trans h7.cm
          revert e1 e2
          generalize s0.append grow (rowM (k, Row.zero.2)) = z
          intro e1 e2
          obtain ⟨z1, z2, z3, z4, z5, z6, z7, z8⟩ := z
          cases e1
          cases e2
          rfl
  · simp only [TreeFrame.call, if_neg hb]
    exact trivial

theorem tree_assembleKey {repr : Bool} {s : TreeSt} {a : TreeFrame} (grow : Nat → Nat) (pol : TreeAsm → Nat)
    (hint : Int) (h : TreeSim repr s a) :
    TreeSteps repr (s.call grow hint .assembleKey) (a.call pol hint .assembleKey) := by
  unfold TreeSt.call
  dsimp only
  rw [(tree_marks h).2]
  by_cases hb : a.s.map.isSome = true
  · simp only [TreeFrame.call, if_pos hb, TreeSt.assembleKey]
    rcases tree_ready h hb with ⟨h1, h2⟩ | ⟨s0, a0, rows, h1, h2, h3, h4, h5, h6, h7⟩
    · rw [TreeAsm.assembleKey, h1, h2]
      rfl
    · have hcall : a.s.assembleKey pol = a0.assembleKey pol := by
        unfold TreeAsm.assembleKey
        rw [h2, holds_ready h4]
      rw [hcall, h1]
      cases hk : a0.assembleKey pol with
      | panic => unfold TreeAsm.assembleKey at hk; rw [holds_ready h4] at hk; cases hk
      | err e x => unfold TreeAsm.assembleKey at hk; rw [holds_ready h4] at hk; cases hk
      | ok x =>
        obtain ⟨i1, i2, i3, i4, i5, i6, i7, i8⟩ := TreeAsm.assembleKey_ok h3.between.1 hk
        obtain ⟨x0, hx0, hcm, -⟩ := Props.between_ready h3.between
        obtain ⟨f1, f2, f3, f4, f5, f6, f7⟩ := append_fields grow (rowM Row.zero) s0
        obtain ⟨mm, hm, ho⟩ := rest_append grow (.text []) h7
        exact ⟨_, rfl, .key i1 (by show x.map ≠ none; rw [i8]; exact h3.between.2.1) i3 ((i6 _ hx0).trans hcm) i4 i5
          (i2.trans h3.rows) rfl (i7.trans h5) rfl (f4.trans h7.cm) rfl (f2.trans hm)
          ⟨ho.mark, ho.tab, ho.len, ho.bound, ho.arr, ho.map⟩
          (by show Idle _ _ (TreeSt.append grow (rowM Row.zero) s0).va; rw [f6]; exact h7.va)
          (fun hn => by show Off (TreeSt.append grow (rowM Row.zero) s0).va; rw [f6]; exact h7.off hn)⟩
  · simp only [TreeFrame.call, if_neg hb]
    exact trivial

theorem tree_finish {repr : Bool} {s : TreeSt} {a : TreeFrame} (grow : Nat → Nat) (pol : TreeAsm → Nat)
    (hint : Int) (h : TreeSim repr s a) :
    TreeSteps repr (s.call grow hint .finish) (a.call pol hint .finish) := by
  unfold TreeSt.call
  dsimp only
  rw [(tree_marks h).2]
  by_cases hb : a.s.map.isSome = true
  · simp only [TreeFrame.call, if_pos hb, TreeSt.finish]
    rcases tree_ready h hb with ⟨h1, h2⟩ | ⟨s0, a0, rows, h1, h2, h3, h4, h5, h6, h7⟩
    · rw [TreeAsm.finish, h1, h2]
      rfl
    · have hcall : a.s.finish = a0.finish := by
        unfold TreeAsm.finish
        rw [h2, holds_ready h4]
      rw [hcall, h1]
      have hf : a0.finish = .ok { a0 with state := .finished, m := .value } := by
        unfold TreeAsm.finish
        rw [holds_ready h4]
      obtain ⟨i1, i2, i3, i4, i5, i6⟩ := TreeAsm.finish_ok h3.between.1 hf
      rw [hf]
      refine ⟨_, rfl, .done i1 i4 i5 (i2.trans h3.rows) rfl h3.between.2.1 rfl rfl ?_⟩
      obtain ⟨g1, g2, g3, g4, g5, g6, g7, g8⟩ := h7
      exact ⟨rfl, g2, g3, g4, g5, g6, g7, g8⟩
  · simp only [TreeFrame.call, if_neg hb]
    exact trivial

theorem asm_keyAssign {a : TreeAsm} (h : a.Inv) (hs : a.state ≠ .midKey) (k : Bytes) : a.keyAssign k = .panic := by
  have hka : a.ka = none := by
    cases hka : a.ka with
    | none => rfl
    | some p => exact absurd (h.key p hka).1 hs
  unfold TreeAsm.keyAssign
  rw [hka]
  split <;> rfl

theorem mem_keyAssign {s : TreeSt} (h : s.kw = none) (k : Bytes) : s.keyAssign k = .panic := by
  unfold TreeSt.keyAssign
  rw [h]
  split <;> rfl

/-- The key of an open row is written. -/
theorem open_key {s : TreeSt} {rows : List Row} {mm : List (Bytes × Ptr)} {b : Bytes} {v : MVal} (k : Bytes)
    (h : Open s.mem.next s rows mm (.text b) v) :
    Open s.mem.next { s with mem := s.mem.write (s.last 0) (.text k), cm := .value } rows mm (.text k) v := by
  obtain ⟨xs, h1, h2⟩ := h.tab
  have hlt : rows.length < xs.length := (List.getElem?_eq_some_iff.1 h2).1
  have hat : (s.mem.write (s.last 0) (.text k)).at' s.tab.arr =
      .arr (xs.set rows.length (.struct [.text k, v])) := by
    rw [last_of h.len]
    simp only [Mem.write, if_pos, h1.here, MVal.set, h2, Option.getD_some, List.set_cons_zero]
  have hget : ∀ i, i < rows.length → (xs.set rows.length (.struct [.text k, v]))[i]? = xs[i]? := by
    intro i hi
    rw [List.getElem?_set_ne (by omega)]
  refine ⟨h.mark, ⟨_, ⟨hat, h1.root, by rw [List.length_set]; exact h1.len, fun i r hr => ?_⟩, ?_⟩, h.len, h.bound,
    h.arr, ?_⟩
  · rw [hget i (List.getElem?_eq_some_iff.1 hr).1]
    exact h1.rows i r hr
  · rw [List.getElem?_set_self hlt]
  · refine mapOk_frame (n := rows.length) h.map (Nat.le_refl _) fun q ys hq hy => ?_
    by_cases he : q = s.tab.arr
    · subst he
      rw [h1.here] at hy
      cases hy
      exact ⟨_, hat, hget⟩
    · refine ⟨ys, ?_, fun _ _ => rfl⟩
      rw [← hy]
      exact write_other _ _ he

theorem tree_keyAssign {repr : Bool} {s : TreeSt} {a : TreeFrame} (grow : Nat → Nat) (pol : TreeAsm → Nat)
    (hint : Int) (h : TreeSim repr s a) (k : Bytes) :
    TreeSteps repr (s.call grow hint (.keyAssign k)) (a.call pol hint (.keyAssign k)) := by
  unfold TreeSt.call
  dsimp only
  rw [(tree_marks h).2]
  by_cases hb : a.s.map.isSome = true
  · simp only [TreeFrame.call, if_pos hb]
    cases h with
    | idle => cases hb
    | rest h1 h2 h3 h4 h5 h6 =>
      rw [asm_keyAssign h1.between.1 (by rw [h2]; nofun), mem_keyAssign h6.kw]; rfl
    | done h1 h2 h3 h4 h5 h6 h7 h8 h9 =>
      rw [asm_keyAssign h1 (by rw [h2]; nofun), mem_keyAssign (s := s) h9.kw]; rfl
    | mid h1 h2 h3 h4 h5 h6 h7 h8 =>
      rw [asm_keyAssign h1.inv (by rw [h1.state]; nofun), mem_keyAssign h6]; rfl
    | keyed h1 h2 h3 h4 h5 h6 h7 h8 h9 =>
      unfold TreeAsm.keyAssign TreeSt.keyAssign
      rw [h4, h9]
      rfl
    | key h1 h2 h3 h4 h5 h6 h7 h8 h9 h10 h11 h12 h13 h14 h15 h16 =>
      have hk : a.s.keyAssign k = .ok { a.s.store a.s.last (fun r => (k, r.2)) with cm := .value } := by
        unfold TreeAsm.keyAssign
        rw [h4, h5]
      obtain ⟨i1, i2, i3, i4, i5, i6, i7, i8⟩ := TreeAsm.keyAssign_ok h1 hk
      obtain ⟨v, hv⟩ := i8 h5 h6
      rw [h7] at hv
      rw [hk]
      refine ⟨{ s with mem := s.mem.write (s.last 0) (.text k), cm := .value }, ?_, ?_⟩
      · unfold TreeSt.keyAssign
        rw [h11, h12]
        rfl
      · exact .keyed i1 h2 i3 i4 hv rfl h9 h10 rfl h13 (open_key k h14) h15 h16
  · simp only [TreeFrame.call, if_neg hb]
    exact trivial

theorem tree_assembleValue {repr : Bool} {s : TreeSt} {a : TreeFrame} (grow : Nat → Nat) (pol : TreeAsm → Nat)
    (hint : Int) (h : TreeSim repr s a) :
    TreeSteps repr (s.call grow hint .assembleValue) (a.call pol hint .assembleValue) := by
  unfold TreeSt.call
  dsimp only
  rw [(tree_marks h).2]
  by_cases hb : a.s.map.isSome = true
  · simp only [TreeFrame.call, if_pos hb]
    unfold TreeSt.assembleValue
    cases h with
    | idle => cases hb
    | rest h1 h2 h3 h4 h5 h6 => rw [TreeAsm.assembleValue, h2, h5]; rfl
    | done h1 h2 h3 h4 h5 h6 h7 h8 h9 => rw [TreeAsm.assembleValue, h2, h7]; rfl
    | mid h1 h2 h3 h4 h5 h6 h7 h8 => rw [TreeAsm.assembleValue, h1.state, h5]; rfl
    | key h1 h2 h3 h4 h5 h6 h7 h8 h9 h10 h11 =>
      rw [TreeAsm.assembleValue, h3, h4, h10, h11]
      rfl
    | @keyed _ _ rows mm k v h1 h2 h3 h4 h5 h6 h7 h8 h9 h10 h11 h12 h13 =>
      obtain ⟨x, hx⟩ : ∃ x, a.s.assembleValue = .ok x := by
        unfold TreeAsm.assembleValue
        rw [h3, h4, h5, List.getLast?_concat]
        cases hm : a.s.map with
        | none => exact absurd hm h2
        | some m => exact ⟨_, rfl⟩
      obtain ⟨i1, i2, i3, i4, i5⟩ := TreeAsm.assembleValue_ok h1 hx
      obtain ⟨i6, i7⟩ := i5 h3
      rw [h5] at i2
      rw [hx, h8, h9, (open_read h11).2.1, h10]
      exact ⟨_, rfl, tree_lent (a := ⟨x, some (fresh .treeEntry)⟩)
        ⟨i1, i3, i7, rfl, i6, ⟨_, i2, nofun⟩, by show x.m ≠ _; rw [i4, h7]; nofun⟩ (i4.trans h7) h11 h12 h13 rfl⟩
  · simp only [TreeFrame.call, if_neg hb]
    exact trivial

theorem tree_call {repr : Bool} {s : TreeSt} {a : TreeFrame} (grow : Nat → Nat) (pol : TreeAsm → Nat)
    (hint : Int) (h : TreeSim repr s a) (c : Call) :
    TreeSteps repr (s.call grow hint c) (a.call pol hint c) := by
  have hm := tree_marks h
  cases c with
  | beginMap =>
    simp only [TreeSt.call, TreeFrame.call, TreeSt.beginMap, TreeAsm.beginMap]
    cases h with
    | idle =>
      refine ⟨_, rfl, .rest (rows := []) ?_ rfl rfl rfl rfl ⟨rfl, rfl, rfl, ⟨[], ⟨?_, ?_, Nat.le_refl _, ?_⟩⟩, rfl, ⟨[], rfl, .nil⟩, ?_, ?_⟩⟩
      · exact ⟨⟨TreeAsm.beginMap_inv (hint := hint) TreeAsm.fresh_inv rfl, (fun h => by cases h), .inl ⟨rfl, rfl⟩⟩, rfl,
          (fun h => by cases h)⟩
      · exact alloc_new _ _
      · exact Nat.lt_succ_self _
      · intro i r hr; simp at hr
      · exact idle_new (Nat.le_refl _)
      · exact fun _ => off_new _ nofun
    | rest h1 h2 h3 h4 => rw [hm.1, h4]; rfl
    | key h1 h2 h3 h4 h5 h6 h7 h8 h9 => rw [hm.1, h9]; rfl
    | keyed h1 h2 h3 h4 h5 h6 h7 => rw [hm.1, h7]; rfl
    | mid h1 h2 => rw [hm.1, h2]; rfl
    | done h1 h2 h3 => rw [hm.1, h3]; rfl
  | beginList n => exact ⟨_, rfl, h⟩
  | assignNull =>
    simp only [TreeSt.call, TreeFrame.call, hm.1]
    split
    · exact ⟨_, rfl, h⟩
    · rfl
  | assignOther => exact ⟨_, rfl, h⟩
  | assignString x => exact ⟨_, rfl, h⟩
  | assignLink l => exact ⟨_, rfl, h⟩
  | assignSelf t v => exact trivial
  | assembleEntry k => exact tree_assembleEntry grow pol hint h k
  | assembleKey => exact tree_assembleKey grow pol hint h
  | keyAssign k => exact tree_keyAssign grow pol hint h k
  | keyAssignOther =>
    simp only [TreeSt.call, TreeFrame.call, hm.2]
    split
    · exact ⟨_, rfl, h⟩
    · exact trivial
  | assembleValue => exact tree_assembleValue grow pol hint h
  | finish => exact tree_finish grow pol hint h

/-! ## Calls through the entry assembler -/

theorem sync_child (a : TreeFrame) (ch : Frame) : (a.sync ch).child = some ch := by
  unfold TreeFrame.sync
  split
  · split <;> rfl
  · rfl

/-- A call through the entry assembler writes to the value of the open row. -/
theorem open_eff {B : Nat} {s : TreeSt} {rows : List Row} {mm : List (Bytes × Ptr)} {y v : MVal} {F F' : Foot}
    {w' : Option Ptr} {μ' : Mem} (h : Open B s rows mm y v) (he : Eff s.mem μ' (some (s.last 1)) w' F F')
    (hF : ∀ r, F r → B ≤ r) (cm : Maybe) (va : Obj) :
    ∃ v', Open B { s with mem := μ', cm := cm, va := va } rows mm y v' := by
  obtain ⟨xs, h1, h2⟩ := h.tab
  have hlt : rows.length < xs.length := (List.getElem?_eq_some_iff.1 h2).1
  obtain ⟨hw, hp⟩ := he.place _ rfl
  have hat : μ'.at' s.tab.arr = .arr (xs.set rows.length (.struct [y, μ'.read (s.last 1)])) := by
    rw [last_of h.len] at hp ⊢
    rw [hp]
    simp only [h1.here, MVal.set, h2, Option.getD_some, List.set_cons_succ, List.set_cons_zero]
  have hget : ∀ i, i < rows.length → (xs.set rows.length (.struct [y, μ'.read (s.last 1)]))[i]? = xs[i]? := by
    intro i hi
    rw [List.getElem?_set_ne (by omega)]
  refine ⟨μ'.read (s.last 1), h.mark, ⟨_, ⟨hat, Nat.lt_of_lt_of_le h1.root he.next,
    by rw [List.length_set]; exact h1.len, fun i r hr => ?_⟩, ?_⟩, h.len, Nat.le_trans h.bound he.next, h.arr, ?_⟩
  · rw [hget i (List.getElem?_eq_some_iff.1 hr).1]
    exact h1.rows i r hr
  · rw [List.getElem?_set_self hlt]
  · refine mapOk_frame (n := rows.length) h.map (Nat.le_refl _) fun q ys hq hy => ?_
    by_cases hqa : q = s.tab.arr
    · subst hqa
      rw [h1.here] at hy
      cases hy
      exact ⟨_, hat, hget⟩
    · refine ⟨ys, ?_, fun _ _ => rfl⟩
      rw [← hy]
      refine he.old q (Nat.lt_of_lt_of_le hq h.bound) (fun hf => ?_) ?_
      · have := hF q hf; omega
      · intro p hp'
        cases hp'
        exact hqa

theorem tree_child {repr : Bool} {s : TreeSt} {a : TreeFrame} {ch : Frame} (h : TreeSim repr s a)
    (hc : a.child = some ch) : ∃ rows mm k v c B F, Props.Mid k rows a ch ∧ a.s.m = .midvalue ∧
      Partial .treeEntry ch c ∧ (∀ d u x, (d, Call.assignSelf u x) ∈ c → Complete u x) ∧ s.state = .midValue ∧
      s.kw = none ∧ s.map = some ((k, s.last 1) :: mm) ∧ Open B s rows mm (.text k) v ∧
      s.va.w = some (s.last 1) ∧ s.va.m = .parent ∧ Sim s.mem s.cm s.va ch F ∧ (∀ r, F r → B ≤ r) ∧
      (repr = false → Neat false s.va ch) := by
  cases h with
  | idle => cases hc
  | rest h1 h2 h3 => rw [h3] at hc; cases hc
  | key h1 h2 h3 h4 h5 h6 h7 h8 => rw [h8] at hc; cases hc
  | keyed h1 h2 h3 h4 h5 h6 => rw [h6] at hc; cases hc
  | done h1 h2 h3 h4 h5 => rw [h5] at hc; cases hc
  | mid h1 h2 h3 h4 h5 h6 h7 h8 h9 h10 h11 h12 h13 =>
    have := h1.child
    rw [hc] at this
    cases this
    exact ⟨_, _, _, _, _, _, _, h1, h2, h3, h4, h5, h6, h7, h8, h9, h10, h11, h12, h13⟩

theorem tree_callAt {repr : Bool} {s : TreeSt} {a : TreeFrame} (grow : Nat → Nat) (pol : TreeAsm → Nat)
    (hint : Int) (h : TreeSim repr s a) (d : Nat) (c : Call) (hc : ∀ u v, c = .assignSelf u v → Complete u v) :
    TreeSteps repr (s.callAt repr grow hint (treeCurrent d a) c) (a.callAt pol hint d c) := by
  cases d with
  | zero => exact tree_call grow pol hint h c
  | succ d =>
    unfold TreeFrame.callAt treeCurrent
    cases hch : a.child with
    | none => exact trivial
    | some ch =>
      dsimp only
      obtain ⟨rows, mm, k, v, cs, B, F, h1, h2, h3, h4, h5, h6, h7, h8, h9, h10, h11, h12, h13⟩ := tree_child h hch
      have hst := sim_callAt repr grow h3 h11 d c hc
      have hi := callAt_inv h3 d c
      have hneat : repr = false → Both (Handles.callAt repr grow (current d ch) c ⟨s.mem, s.cm, s.va⟩) (ch.callAt d c) (Neat false) := by
        intro hr
        subst hr
        exact neat_callAt grow h3 h11 (h13 rfl) (fun h => by cases h) d c
      have hfoot : ∀ {F' : Foot} {μ' : Mem} {w' : Option Ptr}, Eff s.mem μ' s.va.w w' F F' → ∀ r, F' r → B ≤ r := by
        intro F' μ' w' he r hr
        rcases he.foot r hr with hf | hf
        · exact h12 r hf
        · exact Nat.le_trans h8.bound hf
      simp only [TreeSt.callAt]
      cases hcc : ch.callAt d c with
      | ok ch' =>
        rw [hcc] at hst hneat
        obtain ⟨μ', mk', o', F', e1, e2, e3, e4⟩ := hst
        rw [e1] at hneat ⊢
        have e5 := hfoot e3
        rw [h9] at e3
        obtain ⟨v', ho⟩ := open_eff h8 e3 h12 mk' o'
        exact ⟨_, rfl, .mid (Props.mid_sync h1) ((Props.sync_m a ch').trans h2) (hi.1 _ hcc)
          (fun d' u x hx => by
            rcases List.mem_append.1 hx with hx | hx
            · exact h4 d' u x hx
            · simp only [List.mem_singleton, Prod.mk.injEq] at hx
              exact hc u x hx.2.symm) h5 h6 h7 ho (e3.place _ rfl).1 (e4.trans h10) e2 e5 hneat⟩
      | err e ch' =>
        rw [hcc] at hst hneat
        obtain ⟨μ', mk', o', F', e1, e2, e3, e4⟩ := hst
        rw [e1] at hneat ⊢
        have e5 := hfoot e3
        rw [h9] at e3
        obtain ⟨v', ho⟩ := open_eff h8 e3 h12 mk' o'
        exact ⟨_, rfl, .mid (Props.mid_sync h1) ((Props.sync_m a ch').trans h2) (hi.2 _ _ hcc) h4 h5 h6 h7 ho
          (e3.place _ rfl).1 (e4.trans h10) e2 e5 hneat⟩
      | panic =>
        rw [hcc] at hst
        rw [show Handles.callAt repr grow (current d ch) c ⟨s.mem, s.cm, s.va⟩ = .panic from hst]
        rfl
      | noHandle => exact trivial

/-! ## Series of calls -/

theorem treeCurrent_length {pol : TreeAsm → Nat} {hint : Int} {a : TreeFrame} {d : Nat} {c : Call}
    (h : a.callAt pol hint d c ≠ .noHandle) : (treeCurrent d a).length = d := by
  cases d with
  | zero => rfl
  | succ d =>
    unfold TreeFrame.callAt at h
    unfold treeCurrent
    cases hc : a.child with
    | none => rw [hc] at h; exact absurd rfl h
    | some ch =>
      rw [hc] at h
      dsimp only at h ⊢
      rw [List.length_cons, current_length (c := c)]
      intro hn
      rw [hn] at h
      exact h rfl

theorem runTree_play {repr : Bool} {s : TreeSt} {a a' : TreeFrame} (grow : Nat → Nat) (pol : TreeAsm → Nat)
    (hint : Int) {cs good : List (Nat × Call)} (h : TreeSim repr s a)
    (hc : ∀ d u v, (d, Call.assignSelf u v) ∈ cs → Complete u v) (hp : playTree pol hint a cs = some (a', good)) :
    ∃ s' g, runTree repr grow hint s (onCurrentTree pol hint a cs) = some (s', g) ∧ depths g = good ∧
      TreeSim repr s' a' := by
  induction cs generalizing s a good with
  | nil => cases hp; exact ⟨s, [], rfl, rfl, h⟩
  | cons x r ih =>
    obtain ⟨d, c⟩ := x
    have hc1 : ∀ u v, c = .assignSelf u v → Complete u v := fun u v hu => hc d u v (by simp [hu])
    have hc2 : ∀ d u v, (d, Call.assignSelf u v) ∈ r → Complete u v :=
      fun d u v hu => hc d u v (List.mem_cons_of_mem _ hu)
    have hst := tree_callAt grow pol hint h d c hc1
    have hlen := treeCurrent_length (pol := pol) (hint := hint) (a := a) (d := d) (c := c)
    simp only [playTree] at hp
    simp only [onCurrentTree, runTree]
    cases ho : a.callAt pol hint d c with
    | ok b =>
      rw [ho] at hp hst hlen
      dsimp only at hp
      obtain ⟨s1, h1, h2⟩ := hst
      cases hb : playTree pol hint b r with
      | none => rw [hb] at hp; cases hp
      | some q =>
        obtain ⟨b', g'⟩ := q
        rw [hb] at hp
        cases hp
        obtain ⟨s2, g, h3, h4, h5⟩ := ih h2 hc2 hb
        refine ⟨s2, (treeCurrent d a, c) :: g, ?_, ?_, h5⟩
        · rw [h1]
          simp only [h3, Option.map_some]
        · simp only [depths, List.map_cons] at h4 ⊢
          rw [h4, hlen (by simp)]
    | err e b =>
      rw [ho] at hp hst
      dsimp only at hp
      obtain ⟨s1, h1, h2⟩ := hst
      obtain ⟨s2, g, h3, h4, h5⟩ := ih h2 hc2 hp
      refine ⟨s2, g, ?_, h4, h5⟩
      rw [h1]
      simp only [h3]
    | panic => rw [ho] at hp; cases hp
    | noHandle => rw [ho] at hp; cases hp

theorem mapGet_reverse (rows : List Row) (k : Bytes) : mapGet rows.reverse k = lastFor rows k := by
  unfold lastFor
  generalize rows.reverse = l
  induction l with
  | nil => rfl
  | cons x l ih =>
    obtain ⟨k', e⟩ := x
    rw [List.find?_cons]
    simp only [mapGet]
    by_cases h : k' = k
    · simp [h]
    · simp [h, ih]

/-- What `Build` shows of a tree assembler between entries. -/
theorem rest_build {B : Nat} {s : TreeSt} {rows : List Row} {xs : List MVal} {mm : List (Bytes × Ptr)}
    (ht : Tab s.mem s.tab rows xs) (hl : s.tab.len = rows.length) (hmm : s.map = some mm)
    (hmo : MapOk B s.mem rows mm) (hm : s.mark = .value) : s.build = .ok ⟨rows.reverse, rows⟩ := by
  unfold TreeSt.build
  rw [if_pos hm, hmm, Option.getD_some, mapOk_load hmo, tab_items ht]
  congr 2
  have hlen := ht.len
  refine List.ext_getElem? fun i => ?_
  rw [List.getElem?_map]
  by_cases hi : i < rows.length
  · rw [List.getElem?_take_of_lt (by omega), ht.rows i rows[i] (List.getElem?_eq_getElem hi),
      List.getElem?_eq_getElem hi]
    rfl
  · rw [List.getElem?_eq_none (by rw [List.length_take]; omega), List.getElem?_eq_none (by omega)]
    rfl

/-- `Build` shows the same rows, and looking up shows the same entries. -/
theorem tree_build {repr : Bool} {s : TreeSt} {a : TreeFrame} (h : TreeSim repr s a) :
    match a.build with
    | .ok t => ∃ t', s.build = .ok t' ∧ t'.t = t.t ∧ ∀ k, treeLookup t' k = treeLookup t k
    | .err _ => False
    | .panic => s.build = .panic := by
  have hm := (tree_marks h).1
  unfold TreeFrame.build
  by_cases hv : a.s.m = .value
  · rw [if_pos hv]
    dsimp only
    cases h with
    | idle => cases hv
    | rest h1 h2 h3 h4 => rw [h4] at hv; cases hv
    | key h1 h2 h3 h4 h5 h6 h7 h8 h9 => rw [h9] at hv; cases hv
    | keyed h1 h2 h3 h4 h5 h6 h7 => rw [h7] at hv; cases hv
    | mid h1 h2 => rw [h2] at hv; cases hv
    | @done _ _ rows h1 h2 h3 h4 h5 h6 h7 h8 h9 =>
      have hr : a.s.built.t = rows := by
        rw [← h4, TreeAsm.committed_eq (by rw [h2]; nofun)]; rfl
      obtain ⟨xs, ht⟩ := h9.tab
      obtain ⟨mm, hmm, hmo⟩ := h9.map
      refine ⟨_, rest_build (s := s) ht h9.len hmm hmo h8, hr.symm, fun k => ?_⟩
      unfold treeLookup
      rw [mapGet_reverse, Props.mapGet_built h1, h1.lookup, h4]
  · rw [if_neg hv]
    unfold TreeSt.build
    rw [hm, if_neg hv]

/-! ## After `Build` -/

/-- A tree builder that has built, and whose entry assembler cannot reach what is
below `n`. -/
structure TreeStill (n : Nat) (s0 s : TreeSt) : Prop where
  mark : s.mark = .value
  state : s.state = .finished
  kw : s.kw = none
  tab : s.tab = s0.tab
  map : s.map = s0.map
  mem : Keeps n s0.mem s.mem
  va : Loose n s.va

theorem still_treeCall {n : Nat} {s0 s : TreeSt} (grow : Nat → Nat) (hint : Int) (h : TreeStill n s0 s) (p : List Nat)
    (c : Call) : match s.callAt false grow hint p c with
      | .ok s' => TreeStill n s0 s'
      | .err _ s' => TreeStill n s0 s'
      | _ => True := by
  match p with
  | [] =>
    have hr : s.ready = none := by unfold TreeSt.ready; rw [h.state]
    simp only [TreeSt.callAt]
    cases c <;> simp only [TreeSt.call, TreeSt.beginMap, TreeSt.assembleEntry, TreeSt.assembleKey, TreeSt.finish,
      mem_keyAssign h.kw, TreeSt.assembleValue, h.mark, h.state, hr]
    all_goals first | trivial | exact h | skip
    all_goals
      by_cases hb : s.map.isSome = true
      · simp only [hb, if_true]
        first | done | exact h
      · simp only [hb]
        first | done | trivial
  | 0 :: p =>
    simp only [TreeSt.callAt]
    have hl := loose_callAt (a := ⟨s.mem, s.cm, s.va⟩) grow h.mem.1 h.va p c
    cases ho : Handles.callAt false grow p c ⟨s.mem, s.cm, s.va⟩ with
    | ok a =>
      rw [ho] at hl
      exact ⟨h.mark, h.state, h.kw, h.tab, h.map, keeps_trans h.mem hl.1, hl.2⟩
    | err e a =>
      rw [ho] at hl
      exact ⟨h.mark, h.state, h.kw, h.tab, h.map, keeps_trans h.mem hl.1, hl.2⟩
    | panic => trivial
    | noHandle => trivial
  | (j + 1) :: p => simp only [TreeSt.callAt]

theorem still_treeRun {n : Nat} {s0 s s' : TreeSt} (grow : Nat → Nat) (hint : Int) (h : TreeStill n s0 s)
    {cs g : List (List Nat × Call)} (hr : runTree false grow hint s cs = some (s', g)) : TreeStill n s0 s' := by
  induction cs generalizing s g with
  | nil => cases hr; exact h
  | cons x r ih =>
    obtain ⟨p, c⟩ := x
    have hst := still_treeCall grow hint h p c
    simp only [runTree] at hr
    split at hr
    · rename_i s1 hc
      rw [hc] at hst
      cases hb : runTree false grow hint s1 r with
      | none => rw [hb] at hr; cases hr
      | some q =>
        rw [hb] at hr
        cases hr
        exact ih hst hb
    · rename_i s1 hc
      rw [hc] at hst
      exact ih hst hr
    · cases hr
    · cases hr

theorem still_treeBuild {s0 s : TreeSt} {rows : List Row} (h : TreeStill s0.mem.next s0 s)
    (hr : AtRest false { s0 with mark := .midvalue } rows) : s.build = .ok ⟨rows.reverse, rows⟩ := by
  obtain ⟨xs, ht⟩ := hr.tab
  obtain ⟨mm, hmm, hmo⟩ := hr.map
  have hlt : s0.tab.arr < s0.mem.next := ht.root
  refine rest_build (B := s0.mem.next) (xs := xs) (mm := mm) ⟨?_, ?_, ?_, ht.rows⟩ ?_ (h.map.trans hmm) ?_ h.mark
  · rw [h.tab, h.mem.2 _ hlt]; exact ht.here
  · rw [h.tab]; exact Nat.lt_of_lt_of_le hlt h.mem.1
  · rw [h.tab]; exact ht.len
  · rw [h.tab]; exact hr.len
  · exact mapOk_frame (n := rows.length) hmo (Nat.le_refl _) fun q ys hq hy =>
      ⟨ys, by rw [h.mem.2 q hq]; exact hy, fun _ _ => rfl⟩

end Verif.Handles
