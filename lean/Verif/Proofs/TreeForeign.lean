import Verif.Proofs.Foreign
import Verif.Proofs.TreeHandles
import Verif.Spec.TreeForeign

/-! `AssignNode` with any node on the handles of a tree builder. -/

namespace Verif.Handles

open Calls Spec

/-- As `After`. -/
def TAfter (o : TreeRes) (P : TreeSt → Prop) : Prop :=
  match o with
  | .ok s => P s
  | .err _ s => P s
  | _ => True

/-! ## After `Build` -/

theorem still_entry {n : Nat} {s0 s : TreeSt} {act : St → Out} (h : TreeStill n s0 s)
    (hl : Harmless n ⟨s.mem, s.cm, s.va⟩ (act ⟨s.mem, s.cm, s.va⟩)) :
    TAfter (s.withEntry act) (TreeStill n s0) := by
  unfold TreeSt.withEntry
  cases ho : act ⟨s.mem, s.cm, s.va⟩ with
  | ok a =>
    rw [ho] at hl
    exact ⟨h.mark, h.state, h.kw, h.tab, h.map, keeps_trans h.mem hl.1, hl.2⟩
  | err e a =>
    rw [ho] at hl
    exact ⟨h.mark, h.state, h.kw, h.tab, h.map, keeps_trans h.mem hl.1, hl.2⟩
  | panic => trivial
  | noHandle => trivial

theorem still_node {n : Nat} {s0 s : TreeSt} (repr : Bool) (grow : Nat → Nat) (h : TreeStill n s0 s) (x : Nd) :
    TAfter (s.assignNode repr grow x) (TreeStill n s0) := by
  have hr : s.ready = none := by unfold TreeSt.ready; rw [h.state]
  match x with
  | .null => simp only [TreeSt.assignNode, h.mark]; exact trivial
  | .own _ _ x => exact still_node repr grow h x
  | .map .nil =>
    simp only [TreeSt.assignNode, TreeSt.assignRows, TreeSt.finish, hr]
    exact trivial
  | .map (.cons k y r) =>
    simp only [TreeSt.assignNode, TreeSt.assignRows, TreeSt.assembleKey, hr]
    exact trivial
  | .text _ => exact h
  | .link _ => exact h
  | .list _ => exact h
  | .other => exact h

theorem still_treeDeed {n : Nat} {s0 s : TreeSt} (grow : Nat → Nat) (hint : Int) (h : TreeStill n s0 s) (p : List Nat)
    (d : TreeDeed) : TAfter (s.deedAt false grow hint p d) (TreeStill n s0) := by
  match d, p with
  | .call c, p =>
    have := still_treeCall grow hint h p c
    show TAfter (s.callAt false grow hint p c) _
    generalize s.callAt false grow hint p c = o at this ⊢
    cases o <;> exact this
  | .node x, [] => exact still_node false grow h x
  | .node x, 0 :: p =>
    refine still_entry h ?_
    rw [assignAt_path]
    exact loose_path (tame_assign grow x) h.mem.1 h.va p
  | .tree t room, [] =>
    show TAfter (s.assignTree t room) _
    unfold TreeSt.assignTree
    rw [h.mark]
    exact trivial
  | .node _, (_ + 1) :: _ => trivial
  | .tree _ _, _ :: _ => trivial

theorem still_treeDeeds {n : Nat} {s0 s s' : TreeSt} (grow : Nat → Nat) (hint : Int) (h : TreeStill n s0 s)
    {ds : List (List Nat × TreeDeed)} (hr : runTreeDeeds false grow hint s ds = some s') : TreeStill n s0 s' := by
  induction ds generalizing s with
  | nil => cases hr; exact h
  | cons x r ih =>
    obtain ⟨p, d⟩ := x
    have hst := still_treeDeed grow hint h p d
    simp only [runTreeDeeds] at hr
    generalize s.deedAt false grow hint p d = o at hst hr
    cases o with
    | ok s1 => exact ih hst hr
    | err e s1 => exact ih hst hr
    | panic => cases hr
    | noHandle => cases hr

theorem runTree_deeds {repr : Bool} {grow : Nat → Nat} {hint : Int} {s s' : TreeSt} {cs g : List (List Nat × Call)}
    (h : runTree repr grow hint s cs = some (s', g)) :
    runTreeDeeds repr grow hint s (cs.map fun x => (x.1, .call x.2)) = some s' := by
  induction cs generalizing s g with
  | nil => cases h; rfl
  | cons x r ih =>
    obtain ⟨p, c⟩ := x
    simp only [runTree] at h
    simp only [List.map_cons, runTreeDeeds, TreeSt.deedAt]
    generalize s.callAt repr grow hint p c = o at h ⊢
    cases o with
    | ok s1 =>
      simp only [Option.map_eq_some_iff] at h
      obtain ⟨q, h1, h2⟩ := h
      cases h2
      exact ih h1
    | err e s1 => exact ih h
    | panic => cases h
    | noHandle => cases h

/-! ## A tree that is given -/

/-- The memory after a row was added to a table whose first `len` rows were those of
`xs`. -/
structure Added (s s' : TreeSt) (xs : List MVal) (k : Bytes) (e : TreeEntry) : Prop where
  state : s'.state = .midValue
  cm : s'.cm = .value
  ty : s'.va.ty = .treeEntry
  len : s'.tab.len = s.tab.len + 1
  tab : ∃ ys, s'.mem.at' s'.tab.arr = .arr ys ∧ ys.take s'.tab.len = xs.take s.tab.len ++ [rowM (k, e)]
  root : s'.tab.arr < s'.mem.next
  mono : s.mem.next ≤ s'.mem.next
  arr : s'.tab.arr = s.tab.arr ∨ s'.tab.arr = s.mem.next
  map : s'.map = s.map.map fun mm => (k, (s'.tab.arr, [s.tab.len, 1])) :: mm
  old : ∀ q, q < s.mem.next → q ≠ s.tab.arr → s'.mem.at' q = s.mem.at' q
  same : ∃ ys, s'.mem.at' s.tab.arr = .arr ys ∧ ys.take s.tab.len = xs.take s.tab.len

theorem ready_at {s : TreeSt} (h : s.state = .initial ∧ s.cm = .absent ∨ s.state = .midValue ∧ s.cm = .value) :
    ∃ s0, s.ready = some s0 ∧ s0.mem = s.mem ∧ s0.tab = s.tab ∧ s0.map = s.map ∧ s0.cm = .absent ∧
      s0.va.ty = s.va.ty := by
  unfold TreeSt.ready
  rcases h with ⟨h1, h2⟩ | ⟨h1, h2⟩
  · rw [h1]
    exact ⟨s, rfl, rfl, rfl, rfl, h2, rfl⟩
  · rw [h1]
    dsimp only [TreeSt.tidyValue]
    rw [if_pos h2]
    refine ⟨_, rfl, rfl, rfl, rfl, rfl, ?_⟩
    show s.va.park.reset.ty = s.va.ty
    cases s.va with
    | mk t w m g b ph s f cm kids =>
      simp only [Obj.park, Obj.reset]
      cases t.shape <;> rfl

theorem append_at (grow : Nat → Nat) (r : MVal) {s : TreeSt} {xs : List MVal} (hx : s.mem.at' s.tab.arr = .arr xs)
    (hl : s.tab.len ≤ xs.length) (hr : s.tab.arr < s.mem.next) :
    ∃ ys, (s.append grow r).mem.at' (s.append grow r).tab.arr = .arr ys ∧ ys.take s.tab.len = xs.take s.tab.len ∧
      ys[s.tab.len]? = some r ∧ (s.append grow r).tab.arr < (s.append grow r).mem.next ∧
      s.mem.next ≤ (s.append grow r).mem.next ∧
      ((s.append grow r).tab.arr = s.tab.arr ∨
        (s.append grow r).tab.arr = s.mem.next ∧ (s.append grow r).mem.at' s.tab.arr = .arr xs) ∧
      ∀ q, q < s.mem.next → q ≠ s.tab.arr → (s.append grow r).mem.at' q = s.mem.at' q := by
  have hi : TreeSt.items s.mem s.tab.arr = xs := by unfold TreeSt.items; rw [hx]
  have htake : ∀ zs : List MVal, (xs.take s.tab.len ++ r :: zs).take s.tab.len = xs.take s.tab.len := by
    intro zs
    rw [List.take_append_of_le_length (by rw [List.length_take]; omega), List.take_take, Nat.min_self]
  have hlast : ∀ zs : List MVal, (xs.take s.tab.len ++ r :: zs)[s.tab.len]? = some r := by
    intro zs
    rw [List.getElem?_append_right (by rw [List.length_take]; omega), List.length_take]
    have : s.tab.len - min s.tab.len xs.length = 0 := by omega
    rw [this]; rfl
  unfold TreeSt.append
  dsimp only
  rw [hi]
  split
  · refine ⟨_, by simp [Mem.write, MVal.set]; rfl, htake _, hlast _, hr, Nat.le_refl _, Or.inl rfl, ?_⟩
    intro q _ hq
    exact write_other _ _ hq
  · refine ⟨_, by simp [Mem.alloc], htake [], hlast [], Nat.lt_succ_self _, Nat.le_succ _, Or.inr ⟨rfl, ?_⟩, ?_⟩
    · rw [alloc_old _ _ hr]; exact hx
    · intro q hq _
      exact alloc_old _ _ hq

theorem take_set {α : Type} {l : List α} {n : Nat} {x : α} : (l.set n x).take n = l.take n := by
  rw [List.take_set, List.set_eq_of_length_le]
  rw [List.length_take]; omega

/-- One turn of the loop. -/
theorem row_step (repr : Bool) (grow : Nat → Nat) {s : TreeSt} {xs : List MVal} {mm : List (Bytes × Ptr)}
    (hs : s.state = .initial ∧ s.cm = .absent ∨ s.state = .midValue ∧ s.cm = .value) (ht : s.va.ty = .treeEntry)
    (hx : s.mem.at' s.tab.arr = .arr xs) (hl : s.tab.len ≤ xs.length) (hr : s.tab.arr < s.mem.next)
    (hm : s.map = some mm) (k : Bytes) (e : TreeEntry) (view : Nd) (r : Ents) :
    ∃ s', s.assignRows repr grow (.cons k (.own .treeEntry (treeEntryVal e) view) r) = s'.assignRows repr grow r ∧
      Added s s' xs k e := by
  obtain ⟨s0, h1, h2, h3, h4, h5, h6⟩ := ready_at hs
  obtain ⟨f1, f2, f3, f4, f5, f6, f7⟩ := append_fields grow (rowM Row.zero) s0
  rw [← h2, ← h3] at hx
  rw [← h3] at hl
  rw [← h2, ← h3] at hr
  obtain ⟨ys, a1, a2, a3, a4, a5, a6, a7⟩ := append_at grow (rowM Row.zero) hx hl hr
  generalize hu : s0.append grow (rowM Row.zero) = u at f1 f2 f3 f4 f5 f6 f7 a1 a4 a5 a6 a7
  have hlt : s0.tab.len < ys.length := (List.getElem?_eq_some_iff.1 a3).1
  have hp : ∀ i, u.last i = (u.tab.arr, [s0.tab.len, i]) := last_of f7
  have w1 : (u.mem.write (u.last 0) (.text k)).at' u.tab.arr =
      .arr (ys.set s0.tab.len (.struct [.text k, entryM Row.zero.2])) := by
    rw [hp]
    simp only [Mem.write, if_pos, a1, MVal.set, a3, Option.getD_some, rowM, List.set_cons_zero]
  have w2 : ((u.mem.write (u.last 0) (.text k)).write (u.last 1) (entryM e)).at' u.tab.arr =
      .arr (ys.set s0.tab.len (rowM (k, e))) := by
    generalize u.mem.write (u.last 0) (.text k) = μ at w1
    rw [hp]
    simp only [Mem.write, if_pos, w1, MVal.set, List.getElem?_set_self hlt, Option.getD_some, List.set_set,
      List.set_cons_zero, List.set_cons_succ, rowM, MVal.set]
  have wo : ∀ q, q ≠ u.tab.arr →
      ((u.mem.write (u.last 0) (.text k)).write (u.last 1) (entryM e)).at' q = u.mem.at' q := by
    intro q hq
    rw [hp, hp, write_other _ _ hq, write_other _ _ hq]
  have hva : ∀ p : Ptr, ∃ m g b ph sn f cm kids, u.va.lend (some p) .parent =
      .mk .treeEntry (some p) m g b ph sn f cm kids := by
    intro p
    have : u.va.ty = .treeEntry := by rw [f6, h6, ht]
    cases hv : u.va with
    | mk t w m g b ph sn f cm kids =>
      rw [hv] at this
      replace this : t = .treeEntry := this
      subst this
      exact ⟨_, _, _, _, _, _, _, _, rfl⟩
  obtain ⟨m, g, b, ph, sn, f, cm, kids, hobj⟩ := hva (u.last 1)
  refine ⟨{ u with
      state := .midValue, kw := none, cm := .value, map := some ((k, u.last 1) :: mm)
      mem := (u.mem.write (u.last 0) (.text k)).write (u.last 1) (entryM e)
      va := .mk .treeEntry (some (u.last 1)) m g b ph sn f cm kids }, ?_, ?_⟩
  · have e1 : s.assembleKey grow = .ok { u with state := .midKey, kw := some (u.last 0) } := by
      unfold TreeSt.assembleKey
      rw [h1]
      simp only [hu]
    have e2 : TreeSt.keyAssign k { u with state := .midKey, kw := some (u.last 0) } =
        .ok { u with state := .midKey, kw := some (u.last 0), mem := u.mem.write (u.last 0) (.text k), cm := .value } := by
      unfold TreeSt.keyAssign
      simp only
      rw [if_neg (by rw [f4, h5]; decide)]
    have e3 : TreeSt.assembleValue { u with
          state := .midKey, kw := some (u.last 0), mem := u.mem.write (u.last 0) (.text k), cm := .value } =
        .ok { u with
          state := .midValue, kw := none, mem := u.mem.write (u.last 0) (.text k), cm := .absent
          map := some ((k, u.last 1) :: mm), va := u.va.lend (some (u.last 1)) .parent } := by
      have hr : (u.mem.write (u.last 0) (.text k)).read (u.last 0) = .text k := by
        unfold Mem.read
        generalize hμ : u.mem.write (u.last 0) (.text k) = μ at w1
        rw [hp]
        dsimp only
        rw [w1]
        simp only [MVal.get, List.getElem?_set_self hlt, Option.getD_some, List.getElem?_cons_zero]
      unfold TreeSt.assembleValue
      simp only [if_pos]
      have hl0 : ∀ μ mk m st c kw va i, TreeSt.last ⟨μ, mk, u.tab, m, st, c, kw, va⟩ i = u.last i :=
        fun _ _ _ _ _ _ _ _ => rfl
      simp only [hl0, hr, f2, h4, hm]
    have e4 : assignNd repr grow (.own .treeEntry (treeEntryVal e) view)
        ⟨u.mem.write (u.last 0) (.text k), .absent, u.va.lend (some (u.last 1)) .parent⟩ =
        .ok ⟨(u.mem.write (u.last 0) (.text k)).write (u.last 1) (entryM e), .value,
          .mk .treeEntry (some (u.last 1)) m g b ph sn f cm kids⟩ := by
      rw [hobj]
      unfold assignNd
      rfl
    simp only [TreeSt.assignRows, TreeRes.andThen]
    rw [e1]
    simp only
    rw [e2]
    simp only
    rw [e3]
    simp only [TreeSt.withEntry, e4]
  · refine ⟨rfl, rfl, rfl, ?_, ⟨_, w2, ?_⟩, a4, ?_, ?_, ?_, ?_, ?_⟩
    · rw [← h3]; exact f7
    · show (ys.set s0.tab.len (rowM (k, e))).take u.tab.len = _
      rw [f7, ← h3, List.take_add_one, List.getElem?_set_self hlt, take_set, a2]
      rfl
    · rw [← h2]; exact a5
    · rw [← h2, ← h3]; exact a6.imp id And.left
    · rw [hm, ← h3]
      show some ((k, u.last 1) :: mm) = some ((k, (u.tab.arr, [s0.tab.len, 1])) :: mm)
      rw [hp]
    · intro q hq hne
      rw [← h2] at hq
      rw [← h3] at hne
      rw [← h2, ← a7 q hq hne]
      by_cases hqu : q = u.tab.arr
      · rcases a6 with a6 | ⟨a6, _⟩
        · exact absurd (hqu.trans a6) hne
        · rw [a6] at hqu; omega
      · exact wo q hqu
    · rw [← h3]
      rcases a6 with a6 | ⟨a6, a8⟩
      · refine ⟨_, by rw [← a6]; exact w2, ?_⟩
        rw [take_set, a2]
      · refine ⟨xs, ?_, rfl⟩
        rw [← a8]
        refine wo _ ?_
        rw [a6]
        omega

/-- A builder that was given a tree, and then rows. `r0` is the array of the given
table. -/
structure Grown (t : Tree) (r0 : Nat) (s : TreeSt) (rows : List Row) : Prop where
  turn : s.state = .initial ∧ s.cm = .absent ∨ s.state = .midValue ∧ s.cm = .value
  ty : s.va.ty = .treeEntry
  len : s.tab.len = t.t.length + rows.length
  tab : ∃ xs, s.mem.at' s.tab.arr = .arr xs ∧ xs.take s.tab.len = (t.t ++ rows).map rowM
  root : s.tab.arr < s.mem.next
  map : ∃ mm, s.map = some mm ∧ mm.map (fun x => (x.1, TreeSt.loadEntry (s.mem.read x.2))) = rows.reverse ++ t.m ∧
    ∀ x ∈ mm, x.2.1 < s.mem.next ∧ (x.2.1 = s.tab.arr → ∃ i p, x.2.2 = i :: p ∧ i < s.tab.len)
  first : ∃ xs, s.mem.at' r0 = .arr xs ∧ xs.take t.t.length = t.t.map rowM
  lt : r0 < s.mem.next

theorem take_get {α : Type} {l l' : List α} {n i : Nat} (h : l.take n = l'.take n) (hi : i < n) : l[i]? = l'[i]? := by
  rw [← List.getElem?_take_of_lt hi, h, List.getElem?_take_of_lt hi]

theorem grown_added {t : Tree} {r0 : Nat} {s s' : TreeSt} {rows : List Row} (h : Grown t r0 s rows) {k : Bytes}
    {e : TreeEntry} {xs : List MVal} (h1 : s.mem.at' s.tab.arr = .arr xs)
    (h2 : xs.take s.tab.len = (t.t ++ rows).map rowM) (ha : Added s s' xs k e) : Grown t r0 s' (rows ++ [(k, e)]) := by
  obtain ⟨mm, h3, h4, h5⟩ := h.map
  obtain ⟨zs, h6, h7⟩ := h.first
  have hl : s.tab.len ≤ xs.length := by
    have := congrArg List.length h2
    rw [List.length_take, List.length_map, List.length_append, ← h.len] at this
    omega
  refine ⟨Or.inr ⟨ha.state, ha.cm⟩, ha.ty, ?_, ?_, ha.root, ?_, ?_, Nat.lt_of_lt_of_le h.lt ha.mono⟩
  · rw [ha.len, h.len, List.length_append]; rfl
  · obtain ⟨ys, g1, g2⟩ := ha.tab
    refine ⟨ys, g1, ?_⟩
    rw [g2, h2, ← List.append_assoc, List.map_append (l₁ := t.t ++ rows)]
    rfl
  · have hread : ∀ x ∈ mm, s'.mem.read x.2 = s.mem.read x.2 := by
      intro x hx
      obtain ⟨g1, g2⟩ := h5 x hx
      unfold Mem.read
      by_cases hq : x.2.1 = s.tab.arr
      · obtain ⟨i, p, g3, g4⟩ := g2 hq
        obtain ⟨ys, g5, g6⟩ := ha.same
        rw [hq, g3, g5, h1]
        simp only [MVal.get, take_get g6 g4]
      · rw [ha.old _ g1 hq]
    obtain ⟨ys, g1, g2⟩ := ha.tab
    refine ⟨(k, (s'.tab.arr, [s.tab.len, 1])) :: mm, by rw [ha.map, h3]; rfl, ?_, ?_⟩
    · have hlast : ys[s.tab.len]? = some (rowM (k, e)) := by
        have hg : (ys.take s'.tab.len)[s.tab.len]? = ys[s.tab.len]? :=
          List.getElem?_take_of_lt (by rw [ha.len]; omega)
        rw [← hg, g2, List.getElem?_append_right (by rw [List.length_take]; omega), List.length_take,
          Nat.min_eq_left hl, Nat.sub_self]
        rfl
      have hnew : s'.mem.read (s'.tab.arr, [s.tab.len, 1]) = entryM e := by
        unfold Mem.read
        dsimp only
        rw [g1]
        simp only [MVal.get, hlast, Option.getD_some, rowM]
        rfl
      rw [List.map_cons, hnew, List.reverse_append]
      show (k, e) :: _ = (k, e) :: (rows.reverse ++ t.m)
      rw [← h4]
      congr 1
      exact List.map_congr_left fun x hx => by rw [hread x hx]
    · intro x hx
      rcases List.mem_cons.1 hx with rfl | hx
      · exact ⟨ha.root, fun _ => ⟨_, _, rfl, by rw [ha.len]; omega⟩⟩
      · obtain ⟨g3, g4⟩ := h5 x hx
        refine ⟨Nat.lt_of_lt_of_le g3 ha.mono, fun hq => ?_⟩
        rcases ha.arr with g5 | g5
        · obtain ⟨i, p, g6, g7⟩ := g4 (hq.trans g5)
          exact ⟨i, p, g6, by rw [ha.len]; omega⟩
        · rw [g5] at hq; omega
  · by_cases hq : r0 = s.tab.arr
    · obtain ⟨ys, g5, g6⟩ := ha.same
      rw [hq, h1] at h6
      cases h6
      refine ⟨ys, by rw [hq]; exact g5, ?_⟩
      rw [← h7]
      have : t.t.length ≤ s.tab.len := by rw [h.len]; omega
      rw [← Nat.min_eq_left this, ← List.take_take, g6, List.take_take]
    · exact ⟨zs, by rw [ha.old _ h.lt hq]; exact h6, h7⟩

theorem grown_step (repr : Bool) (grow : Nat → Nat) {t : Tree} {r0 : Nat} {s : TreeSt} {rows : List Row}
    (h : Grown t r0 s rows) (k : Bytes) (e : TreeEntry) (view : Nd) (r : Ents) :
    ∃ s', s.assignRows repr grow (.cons k (.own .treeEntry (treeEntryVal e) view) r) = s'.assignRows repr grow r ∧
      Grown t r0 s' (rows ++ [(k, e)]) := by
  obtain ⟨xs, h1, h2⟩ := h.tab
  obtain ⟨mm, h3, -, -⟩ := h.map
  have hl : s.tab.len ≤ xs.length := by
    have := congrArg List.length h2
    rw [List.length_take, List.length_map, List.length_append, ← h.len] at this
    omega
  obtain ⟨s', e1, ha⟩ := row_step repr grow h.turn h.ty h1 hl h.root h3 k e view r
  exact ⟨s', e1, grown_added h h1 h2 ha⟩

theorem grown_rows (repr : Bool) (grow : Nat → Nat) {t : Tree} {r0 : Nat} {s : TreeSt} {rows : List Row}
    (h : Grown t r0 s rows) (more : List Row) :
    ∃ s' : TreeSt, s.assignRows repr grow (rowEnts more) = .ok { s' with state := .finished, mark := .value } ∧
      Grown t r0 { s' with cm := .absent, state := .initial } (rows ++ more) := by
  induction more generalizing s rows with
  | nil =>
    obtain ⟨s0, h1, h2, h3, h4, h5, h6⟩ := ready_at h.turn
    refine ⟨s0, ?_, ?_⟩
    · show s.finish = _
      unfold TreeSt.finish
      rw [h1]
    · rw [List.append_nil]
      refine ⟨Or.inl ⟨rfl, rfl⟩, h6.trans h.ty, ?_, ?_, ?_, ?_, ?_, ?_⟩
      · rw [h3]; exact h.len
      · rw [h2, h3]; exact h.tab
      · rw [h2, h3]; exact h.root
      · rw [h2, h3, h4]; exact h.map
      · rw [h2]; exact h.first
      · rw [h2]; exact h.lt
  | cons x l ih =>
    obtain ⟨s1, h1, h2⟩ := grown_step repr grow h x.1 x.2
      (.map (.cons b!"mode" (.text x.2.mode) (.cons b!"hash" (.link x.2.hash) .nil))) (rowEnts l)
    obtain ⟨s2, h3, h4⟩ := ih h2
    refine ⟨s2, ?_, ?_⟩
    · show s.assignRows repr grow (.cons x.1 _ (rowEnts l)) = _
      rw [h1, h3]
    · rw [List.append_assoc] at h4
      exact h4

theorem given_load (μ : Mem) (r : Nat) (l pre : List (Bytes × TreeEntry))
    (h : μ.at' r = .arr ((pre ++ l).map fun x => entryM x.2)) :
    (TreeSt.given r pre.length l).map (fun x => (x.1, TreeSt.loadEntry (μ.read x.2))) = l := by
  induction l generalizing pre with
  | nil => rfl
  | cons x l ih =>
    have := ih (pre ++ [x]) (by rw [List.append_assoc]; exact h)
    rw [List.length_append] at this
    rw [TreeSt.given, List.map_cons]
    congr 1
    have hr : μ.read (r, [pre.length]) = entryM x.2 := by
      unfold Mem.read
      dsimp only
      rw [h]
      simp [MVal.get]
    dsimp only
    rw [hr]
    rfl

theorem given_roots (r i : Nat) (l : List (Bytes × TreeEntry)) : ∀ x ∈ TreeSt.given r i l, x.2.1 = r := by
  induction l generalizing i with
  | nil => intro x hx; cases hx
  | cons y l ih =>
    intro x hx
    rcases List.mem_cons.1 hx with rfl | hx
    · rfl
    · exact ih (i + 1) x hx

theorem loadRows (l : List Row) : (l.map rowM).map TreeSt.loadRow = l := by
  rw [List.map_map]
  conv => rhs; rw [← List.map_id l]
  exact List.map_congr_left fun x _ => loadRow_M x

/-- What the builder, and the given tree, show then. -/
theorem grown_shown {t : Tree} {r0 : Nat} {s : TreeSt} {rows : List Row} (h : Grown t r0 s rows) (c : Nat) :
    shownTree s.map s.tab s.mem = ⟨rows.reverse ++ t.m, t.t ++ rows⟩ ∧
    shownTree s.map ⟨r0, t.t.length, c⟩ s.mem = ⟨rows.reverse ++ t.m, t.t⟩ := by
  obtain ⟨xs, h1, h2⟩ := h.tab
  obtain ⟨mm, h3, h4, -⟩ := h.map
  obtain ⟨zs, h6, h7⟩ := h.first
  unfold shownTree TreeSt.items
  dsimp only
  rw [h1, h6, h3]
  dsimp only [Option.getD_some]
  rw [h2, h7, h4, loadRows, loadRows]
  exact ⟨rfl, rfl⟩

/-- A new builder that is given a tree. -/
theorem given_grown (t : Tree) (room : Nat) : ∃ s, TreeSt.fresh.assignTree t room = .ok s ∧ s.mark = .value ∧
    s.tab = ⟨1, t.t.length, t.t.length + room⟩ ∧ Grown t 1 s [] := by
  refine ⟨_, rfl, rfl, rfl, Or.inl ⟨rfl, rfl⟩, rfl, rfl, ⟨_, rfl, ?_⟩, Nat.lt_succ_of_le (Nat.le_succ 1),
    ⟨_, rfl, ?_, ?_⟩, ⟨_, rfl, ?_⟩, Nat.lt_succ_of_le (Nat.le_succ 1)⟩
  · rw [List.append_nil]
    exact List.take_of_length_le (by rw [List.length_map]; exact Nat.le_refl _)
  · exact given_load _ 2 t.m [] rfl
  · intro x hx
    have hr := given_roots _ _ _ x hx
    rw [hr]
    exact ⟨Nat.lt_succ_self 2, fun h => by cases h⟩
  · exact List.take_of_length_le (by rw [List.length_map]; exact Nat.le_refl _)

end Verif.Handles
