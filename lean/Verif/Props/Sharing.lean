import Verif.Proofs.Sharing

/-!
# Nodes do not change after they are built (C56)

`Unchanging K` is the claim; it is false for lists, trees and commits. It holds for
callers that never call an assembler that already holds a value.
-/

namespace Verif.Props

open Verif

/-- Once a node is built, it reads the same after any further actions. -/
def Unchanging {M L C V : Type} (K : BuilderKind M L C V) : Prop :=
  ∀ (pre post : List (Act C)) (w w' : World M L) (i : Nat) (v : V),
    K.run pre K.start = some w → K.run post w = some w' → K.node w i = some v →
    K.node w' i = some v

/-- It does if no call is made on an assembler that holds a value. Missing: other
callers, for whom it is false. -/
theorem list_nodes_unchanging_partial {α : Type} (room : Nat) (zero : α)
    (pre post : List (Act (ListCall α))) (w w' : World (List (List α)) ListAsm) (i : Nat) (v : List α)
    (h : (listKind room zero).run pre (listKind room zero).start = some w)
    (ha : (listKind room zero).Allowed pre (listKind room zero).start)
    (h' : (listKind room zero).run post w = some w') (ha' : (listKind room zero).Allowed post w)
    (hv : (listKind room zero).node w i = some v) : (listKind room zero).node w' i = some v :=
  let S := listSeparation room zero
  (S.run_inv (S.run_inv S.start_inv ha h).1 ha' h').2 i v hv

theorem tree_nodes_unchanging_partial (pol : TreeAsm → Nat)
    (pre post : List (Act TreeAct)) (w w' : World TreeMem TreeRef) (i : Nat) (v : TreeView)
    (h : (treeKind pol).run pre (treeKind pol).start = some w)
    (ha : (treeKind pol).Allowed pre (treeKind pol).start)
    (h' : (treeKind pol).run post w = some w') (ha' : (treeKind pol).Allowed post w)
    (hv : (treeKind pol).node w i = some v) : (treeKind pol).node w' i = some v :=
  let S := treeSeparation pol
  (S.run_inv (S.run_inv S.start_inv ha h).1 ha' h').2 i v hv

theorem people_nodes_unchanging_partial
    (pre post : List (Act PeopleCall)) (w w' : World (List PersonInfo) PeopleAsm) (i : Nat)
    (v : List (Option PersonInfo))
    (h : peopleKind.run pre peopleKind.start = some w)
    (ha : peopleKind.Allowed pre peopleKind.start)
    (h' : peopleKind.run post w = some w') (ha' : peopleKind.Allowed post w)
    (hv : peopleKind.node w i = some v) : peopleKind.node w' i = some v :=
  let S := peopleSeparation
  (S.run_inv (S.run_inv S.start_inv ha h).1 ha' h').2 i v hv

theorem allowed_cons {M L C V : Type} {K : BuilderKind M L C V} {x : Act C} {r : List (Act C)}
    {w w' : World M L} (h1 : K.allowed w x = true) (h2 : K.act w x = some w') (h3 : K.Allowed r w') :
    K.Allowed (x :: r) w :=
  ⟨h1, fun u hu => by rw [h2] at hu; cases hu; exact h3⟩

/-! ## Lists -/

/-- The calls for one more element. -/
def addElem {α : Type} (i : Nat) (x : α) : List (Act (ListCall α)) :=
  [.call i none .assembleValue, .call i none (.valueWrite x), .call i none .valueDone]

/-- The list `[x]`, made with room for one more element. -/
def oneElem {α : Type} (x : α) : List (Act (ListCall α)) :=
  [.new false, .call 0 none (.beginList 2)] ++ addElem 0 x ++ [.call 0 none .finish]

/-- `AssignNode` of a list and then of a list of another type that holds `x`. -/
def assignBoth {α : Type} (i j : Nat) (x : α) : List (Act (ListCall α)) :=
  [.new false, .call j (some i) .assignOwn] ++ addElem j x ++ [.call j none .finish]

/-- Two builders that were given the same list overwrite each other's next element:
the first built `[x, y]`, and it reads `[x, z]` when the second is done. The list
they were given still reads `[x]`. -/
theorem list_node_changes {α : Type} (room : Nat) (zero x y z : α) :
    ∃ w w', (listKind room zero).run (oneElem x ++ assignBoth 0 1 y) (listKind room zero).start = some w ∧
      (listKind room zero).run (assignBoth 0 2 z) w = some w' ∧
      (listKind room zero).node w 1 = some [x, y] ∧ (listKind room zero).node w' 1 = some [x, z] ∧
      (listKind room zero).node w' 0 = some [x] := by
  refine ⟨⟨[[], [x, y]], [⟨1, 1, .value, .finished, .absent, none⟩, ⟨1, 2, .value, .finished, .absent, none⟩]⟩,
    ⟨[[], [x, z]], [⟨1, 1, .value, .finished, .absent, none⟩, ⟨1, 2, .value, .finished, .absent, none⟩,
      ⟨1, 2, .value, .finished, .absent, none⟩]⟩, ?_, ?_, rfl, rfl, rfl⟩
  · rfl
  · rfl

theorem list_not_unchanging (room : Nat) : ¬ Unchanging (listKind room (0 : Nat)) := by
  intro h
  obtain ⟨w, w', h1, h2, h3, h4, -⟩ := list_node_changes room (0 : Nat) 1 2 3
  have := h _ _ w w' 1 _ h1 h2 h3
  rw [h4] at this
  simp at this

/-- A list that was built by `AssignNode` grows when its builder is used again. -/
theorem list_node_grows {α : Type} (room : Nat) (zero x y : α) :
    ∃ w w', (listKind room zero).run (oneElem x ++ [.new false, .call 1 (some 0) .assignOwn])
        (listKind room zero).start = some w ∧
      (listKind room zero).run (addElem 1 y ++ [.call 1 none .finish]) w = some w' ∧
      (listKind room zero).node w 1 = some [x] ∧ (listKind room zero).node w' 1 = some [x, y] :=
  ⟨_, _, rfl, rfl, rfl, rfl⟩

/-! ## Trees -/

/-- `AssignNode` of tree `i` to the new builder `j`, and then of a map of another
type that holds `k` and `e`. -/
def treeAssignBoth (i j : Nat) (k : Bytes) (e : TreeEntry) : List (Act TreeAct) :=
  [.new false, .call j (some i) .assignOwn] ++
    [TreeCall.assembleKey, .keyAssign k, .assembleValue, .valueWrite e, .valueDone, .finish].map
      (fun c => .call j none (.call c))

/-- The rows below `n` of array `a`. -/
def below (h : List (List Row)) (a n : Nat) : List Row := (h[a]?.getD []).take n

theorem below_append (pol : TreeAsm → Nat) {s : TreeAsm} (hb : s.Bound) (r : Row) :
    below (s.append pol r).heap s.arr s.len = below s.heap s.arr s.len := by
  have hlt := hb.lt
  obtain ⟨a, h1, h2⟩ := hb
  unfold TreeAsm.append below
  rw [h1]
  dsimp only [Option.getD_some]
  by_cases h : s.len < a.length
  · rw [if_pos h]
    dsimp only
    rw [List.getElem?_set_self hlt, Option.getD_some, List.take_set_of_le (Nat.le_refl _)]
  · rw [if_neg h]
    dsimp only
    rw [List.getElem?_append_left hlt, h1, Option.getD_some]

theorem below_store {s : TreeAsm} {a n : Nat} {p : Ptr} (h : n ≤ p.idx) (f : Row → Row) :
    below (s.store p f).heap a n = below s.heap a n := by
  unfold TreeAsm.store below
  dsimp only
  rw [List.getElem?_modify]
  by_cases hp : p.arr = a
  · cases ha : s.heap[a]? with
    | none => rfl
    | some l =>
      simp only [Option.map_eq_map, Option.map_some, if_pos hp, Option.getD_some]
      apply List.ext_getElem?
      intro i
      simp only [List.getElem?_take]
      by_cases hi : i < n
      · rw [if_pos hi, if_pos hi, List.getElem?_modify]
        have hne : ¬ p.idx = i := by omega
        simp only [if_neg hne]
        cases l[i]? <;> rfl
      · rw [if_neg hi, if_neg hi]
  · cases ha : s.heap[a]? with
    | none => rfl
    | some l => simp only [Option.map_eq_map, Option.map_some, if_neg hp]

/-- The calls of `AssignNode` of a map with one entry. -/
def sharedEntryCalls (k : Bytes) (e : TreeEntry) : List TreeCall :=
  [.assembleKey, .keyAssign k, .assembleValue, .valueWrite e, .valueDone, .finish]

theorem assembleValue_midKey {t : TreeAsm} {r : Row} {mm : List (Bytes × Ptr)} (hs : t.state = .midKey)
    (hc : t.cm = .value) (ht : t.table.getLast? = some r) (hm : t.map = some mm) :
    t.assembleValue = .ok { t with
      cm := .absent
      ka := none
      map := some ((r.1, t.last) :: mm)
      va := some t.last
      state := .midValue } := by
  simp only [TreeAsm.assembleValue, hs, hc, ht, if_true, TreeAsm.put, hm]
  rfl

theorem sharedEntryCalls_run (pol : TreeAsm → Nat) {s : TreeAsm} {mm : List (Bytes × Ptr)} (hb : s.Bound)
    (hs : s.state = .initial) (hc : s.cm = .absent) (hm : s.map = some mm)
    (k : Bytes) (e : TreeEntry) :
    ∃ s', TreeAsm.runCalls pol (sharedEntryCalls k e) s = some s' ∧ s'.lookup k = some e ∧
      below s'.heap s.arr s.len = below s.heap s.arr s.len := by
  -- `AssembleKey`
  obtain ⟨f1, f2, f3, f4, f5, f6⟩ := TreeAsm.append_fields pol s Row.zero
  have b1 := TreeAsm.append_bound pol hb Row.zero
  have t1 := TreeAsm.append_table pol hb Row.zero
  have l1 := TreeAsm.append_len pol s Row.zero
  have w1 := below_append pol hb Row.zero
  have r1 : s.assembleKey pol = .ok { TreeAsm.append pol s Row.zero with
      state := .midKey, ka := some (TreeAsm.append pol s Row.zero).last } := by
    simp only [TreeAsm.assembleKey, TreeAsm.ready, hs]
  revert f1 f2 f3 f4 f5 f6 b1 t1 l1 w1 r1
  generalize TreeAsm.append pol s Row.zero = a1
  intro f1 f2 f3 f4 f5 f6 b1 t1 l1 w1 r1
  -- the key
  let a2 : TreeAsm := { a1 with state := .midKey, ka := some a1.last }
  have b2 : a2.Bound := b1
  have t2 : a2.table = s.table ++ [Row.zero] := t1
  have hpos : 0 < a2.len := by show 0 < a1.len; omega
  have b3 := TreeAsm.store_bound b2 a2.last (fun r => (k, r.2))
  have t3 := TreeAsm.store_table_last b2 hpos (fun r => (k, r.2)) t2
  have w3 : below (a2.store a2.last (fun r => (k, r.2))).heap s.arr s.len = below a2.heap s.arr s.len :=
    below_store (by show s.len ≤ a1.len - 1; omega) _
  have r3 : a2.keyAssign k = .ok { a2.store a2.last (fun r => (k, r.2)) with cm := .value } := by
    have : a2.cm = .absent := by show a1.cm = .absent; rw [f4, hc]
    simp only [TreeAsm.keyAssign, this]
    rfl
  have m3 : (a2.store a2.last (fun r => (k, r.2))).map = some mm := by
    show a1.map = some mm; rw [f1, hm]
  have q3 : (a2.store a2.last (fun r => (k, r.2))).len = s.len + 1 := l1
  have s3 : (a2.store a2.last (fun r => (k, r.2))).state = .midKey := rfl
  revert b3 t3 w3 r3 m3 q3 s3
  generalize a2.store a2.last (fun r => (k, r.2)) = a3
  intro b3 t3 w3 r3 m3 q3 s3
  -- `AssembleValue`
  let a4 : TreeAsm := { a3 with cm := .absent, ka := none, map := some ((k, a3.last) :: mm), va := some a3.last, state := .midValue }
  have r4 : ({ a3 with cm := .value } : TreeAsm).assembleValue = .ok a4 := by
    have ht : ({ a3 with cm := .value } : TreeAsm).table.getLast? = some (k, Row.zero.2) := by
      show a3.table.getLast? = _
      rw [t3, List.getLast?_concat]
    exact assembleValue_midKey (t := { a3 with cm := .value }) s3 rfl ht m3
  have b4 : a4.Bound := b3
  have t4 : a4.table = s.table ++ [(k, Row.zero.2)] := t3
  have hpos4 : 0 < a4.len := by show 0 < a3.len; omega
  -- the value
  have b5 := TreeAsm.store_bound b4 a4.last (fun r => (r.1, e))
  have t5 := TreeAsm.store_table_last b4 hpos4 (fun r => (r.1, e)) t4
  have w5 : below (a4.store a4.last (fun r => (r.1, e))).heap s.arr s.len = below a4.heap s.arr s.len :=
    below_store (by show s.len ≤ a3.len - 1; omega) _
  have r5 : a4.valueWrite e = .ok (a4.store a4.last (fun r => (r.1, e))) := rfl
  refine ⟨{ a4.store a4.last (fun r => (r.1, e)) with va := none, cm := .absent, state := .finished, m := .value }, ?_, ?_, ?_⟩
  · simp only [sharedEntryCalls, TreeAsm.runCalls, TreeAsm.step, r1]
    rw [r3]
    dsimp only
    rw [r4]
    dsimp only
    rw [r5]
    rfl
  · obtain ⟨init, r, h1, h2, -⟩ := TreeAsm.table_last b5 hpos4
    have hr : r = (k, e) := by
      rw [t5] at h1
      have := congrArg List.getLast? h1
      simpa using this.symm
    rw [hr] at h2
    have hg : TreeAsm.get (a4.store a4.last (fun r => (r.1, e))).map k = some a3.last := by
      show TreeAsm.find ((k, a3.last) :: mm) k = _
      simp [TreeAsm.find]
    show ((TreeAsm.get (a4.store a4.last (fun r => (r.1, e))).map k).bind fun p =>
      ((a4.store a4.last (fun r => (r.1, e))).deref p).map (·.2)) = some e
    rw [hg]
    show ((a4.store a4.last (fun r => (r.1, e))).deref (a4.store a4.last (fun r => (r.1, e))).last).map (·.2) = some e
    rw [h2]
    rfl
  · show below (a4.store a4.last (fun r => (r.1, e))).heap s.arr s.len = _
    rw [w5]
    show below a3.heap s.arr s.len = _
    rw [w3]
    exact w1

/-- Calls other than `BeginMap` by a builder that has a map. -/
theorem tree_run_calls (pol : TreeAsm → Nat) (j mi : Nat) : ∀ (cs : List TreeCall) (w : World TreeMem TreeRef)
    (s s' : TreeAsm), (∀ c ∈ cs, ∀ hint, c ≠ .beginMap hint) → w.asms[j]? = some ⟨some mi, s⟩ →
    TreeRef.Ok w.mem ⟨some mi, s⟩ →
    TreeAsm.runCalls pol cs (TreeRef.see w.mem ⟨some mi, s⟩) = some s' →
    ∃ w' l, (treeKind pol).run (cs.map (fun c => .call j none (.call c))) w = some w' ∧
      w'.asms = w.asms.set j ⟨some mi, l⟩ ∧ TreeRef.see w'.mem ⟨some mi, l⟩ = s' ∧
      mi < w'.mem.maps.length
  | [], w, s, s', _, hj, ho, h => by
    simp only [TreeAsm.runCalls, Option.some.injEq] at h
    have hlt : j < w.asms.length := (List.getElem?_eq_some_iff.1 hj).1
    refine ⟨w, s, rfl, ?_, h, ho.2 mi rfl⟩
    apply List.ext_getElem?
    intro n
    by_cases hn : j = n
    · subst hn; rw [List.getElem?_set_self hlt, hj]
    · rw [List.getElem?_set_ne hn]
  | c :: cs, w, s, s', hcs, hj, ho, h => by
    have hlt : j < w.asms.length := (List.getElem?_eq_some_iff.1 hj).1
    simp only [TreeAsm.runCalls] at h
    have hstep : ∃ t, ((TreeRef.see w.mem ⟨some mi, s⟩).step pol c = .ok t ∨
        ∃ e, (TreeRef.see w.mem ⟨some mi, s⟩).step pol c = .err e t) ∧
        TreeAsm.runCalls pol cs t = some s' ∧
        TreeRef.step pol w.mem ⟨some mi, s⟩ none (.call c) = some (TreeRef.back w.mem ⟨some mi, s⟩ c t) := by
      split at h
      · rename_i t ht
        exact ⟨t, .inl ht, h, by simp only [TreeRef.step, ht]⟩
      · rename_i e t ht
        exact ⟨t, .inr ⟨e, ht⟩, h, by simp only [TreeRef.step, ht]⟩
      · cases h
    obtain ⟨t, hst, hrest, hact⟩ := hstep
    obtain ⟨b1, b2, b3, b4, -, -, -⟩ := TreeRef.see_back ho hst
    obtain ⟨he, -, -⟩ := TreeAsm.step_eff ho.1 hst
    have hback : (TreeRef.back w.mem ⟨some mi, s⟩ c t).2 = ⟨some mi, t⟩ := by
      cases c <;> first | rfl | exact absurd rfl (hcs _ List.mem_cons_self _)
    rw [hback] at b1 b4
    have hin : TreeRef.Ok (TreeRef.back w.mem ⟨some mi, s⟩ c t).1 ⟨some mi, t⟩ :=
      ⟨by rw [b1]; exact he.inn ho.1, b4⟩
    obtain ⟨w', l, r1, r2, r3, r4⟩ := tree_run_calls pol j mi cs
      ⟨(TreeRef.back w.mem ⟨some mi, s⟩ c t).1, w.asms.set j ⟨some mi, t⟩⟩ t s'
      (fun c hc => hcs c (List.mem_cons_of_mem _ hc)) (List.getElem?_set_self hlt) hin
      (by rw [b1]; exact hrest)
    refine ⟨w', l, ?_, ?_, r3, r4⟩
    · simp only [List.map_cons, BuilderKind.run, BuilderKind.act, hj, Option.bind_some,
        BuilderKind.argument]
      have : (treeKind pol).step w.mem ⟨some mi, s⟩ none (.call c) =
          some (TreeRef.back w.mem ⟨some mi, s⟩ c t) := hact
      rw [this]
      simp only [Option.map_some, Option.bind_some, hback]
      exact r1
    · rw [r2]
      simp only [List.set_set]

/-- Whatever tree was built before, giving it to a builder and then giving that
builder a map of another type changes the tree: the entry is found in it, under a
name it may not have or in place of its own entry, while its rows are still the
same. -/
theorem tree_source_changes (pol : TreeAsm → Nat) (pre : List (Act TreeAct))
    (w : World TreeMem TreeRef) (i : Nat) (v : TreeView) (k0 k : Bytes) (e0 e : TreeEntry)
    (h : (treeKind pol).run pre (treeKind pol).start = some w)
    (ha : (treeKind pol).Allowed pre (treeKind pol).start)
    (hv : (treeKind pol).node w i = some v) (hk : v.find k0 = some e0) :
    ∃ w' v', (treeKind pol).run (treeAssignBoth i w.asms.length k e) w = some w' ∧
      (treeKind pol).node w' i = some v' ∧ v'.rows = v.rows ∧ v'.find k = some e := by
  have hi := ((treeSeparation pol).run_inv (treeSeparation pol).start_inv ha h).1
  unfold BuilderKind.node at hv
  cases hia : w.asms[i]? with
  | none => rw [hia] at hv; simp at hv
  | some a =>
    rw [hia] at hv
    simp only [Option.bind_some] at hv
    split at hv
    · rename_i hd
      simp only [Option.some.injEq] at hv
      subst hv
      have hok : TreeRef.Ok w.mem a := hi.ok i a hia
      have hlt : i < w.asms.length := (List.getElem?_eq_some_iff.1 hia).1
      cases hm : a.map with
      | none =>
        simp only [treeKind, TreeAsm.lookup, TreeRef.see, hm, Option.bind_none, TreeAsm.get] at hk
        simp at hk
      | some mi =>
        have hmi := hok.2 mi hm
        -- the new builder after `AssignNode`
        let loc : TreeAsm := { TreeAsm.fresh with arr := a.loc.arr, len := a.loc.len, m := .value }
        let w1 : World TreeMem TreeRef := ⟨w.mem, w.asms ++ [⟨some mi, loc⟩]⟩
        have hw1 : (treeKind pol).run [.new false, .call w.asms.length (some i) .assignOwn] w = some w1 := by
          simp only [BuilderKind.run, BuilderKind.act, Option.bind_some, BuilderKind.argument]
          rw [List.getElem?_concat_length, List.getElem?_append_left hlt, hia]
          simp only [Option.bind_some]
          rw [if_pos hd]
          simp [treeKind, TreeRef.step, TreeAsm.fresh, hm, w1, loc, List.set_append_right]
        have ok1 : TreeRef.Ok w1.mem ⟨some mi, loc⟩ := by
          refine ⟨⟨hok.1.zero, hok.1.bound, (by intro p hp; cases hp), (by intro p hp; cases hp), ?_⟩, ?_⟩
          · intro q hq
            refine hok.1.ptr q ?_
            simp only [TreeRef.see, hm]
            exact hq
          · intro n hn; cases hn; exact hmi
        obtain ⟨s', r1, r2, r3⟩ := sharedEntryCalls_run pol (s := TreeRef.see w1.mem ⟨some mi, loc⟩)
          (mm := w.mem.maps[mi]) ok1.1.bound rfl rfl (by simp [TreeRef.see, w1, hmi]) k e
        obtain ⟨w', l, q1, q2, q3, q4⟩ := tree_run_calls pol w.asms.length mi (sharedEntryCalls k e) w1 loc s'
          (by intro c hc hint; simp [sharedEntryCalls] at hc; rcases hc with rfl | rfl | rfl | rfl | rfl | rfl <;> simp)
          (by simp [w1]) ok1 r1
        have hrun : (treeKind pol).run (treeAssignBoth i w.asms.length k e) w = some w' := by
          have : ∀ (x y : List (Act TreeAct)) (u u' u'' : World TreeMem TreeRef), (treeKind pol).run x u = some u' →
              (treeKind pol).run y u' = some u'' → (treeKind pol).run (x ++ y) u = some u'' := by
            intro x
            induction x with
            | nil =>
              intro y u u' u'' h1 h2
              simp only [BuilderKind.run, Option.some.injEq] at h1
              subst h1; exact h2
            | cons c x ih =>
              intro y u u' u'' h1 h2
              simp only [BuilderKind.run, List.cons_append, Option.bind_eq_some_iff] at h1 ⊢
              obtain ⟨u1, h3, h4⟩ := h1
              exact ⟨u1, h3, ih y u1 u' u'' h4 h2⟩
          exact this _ _ w w1 w' hw1 q1
        have hia' : w'.asms[i]? = some a := by
          rw [q2, List.getElem?_set_ne (by omega)]
          simp only [w1, List.getElem?_append_left hlt, hia]
        refine ⟨w', (treeKind pol).view w'.mem a, hrun, ?_, ?_, ?_⟩
        · unfold BuilderKind.node
          rw [hia']
          simp only [Option.bind_some, if_pos hd]
        · have hh : w'.mem.heap = s'.heap := by rw [← q3]; rfl
          show ((w'.mem.heap)[a.loc.arr]?.getD []).take a.loc.len = (w.mem.heap[a.loc.arr]?.getD []).take a.loc.len
          rw [hh]
          exact r3
        · have : (treeKind pol).view w'.mem a = ⟨(a.see w'.mem).table, (a.see w'.mem).lookup⟩ := rfl
          rw [this]
          show (a.see w'.mem).lookup k = some e
          rw [← r2, ← q3]
          simp only [TreeAsm.lookup, TreeRef.see, hm]
          rfl
    · cases hv

/-- A tree with one entry. -/
def oneEntry (k : Bytes) (e : TreeEntry) : List (Act TreeAct) :=
  .new false :: ([TreeCall.beginMap 1, .assembleEntry k, .valueWrite e, .valueDone, .finish].map
      (fun c => .call 0 none (.call c)))

/-- Such a tree can be built, by calls that are allowed. -/
theorem oneEntry_run (pol : TreeAsm → Nat) (k : Bytes) (e : TreeEntry) :
    (treeKind pol).Allowed (oneEntry k e) (treeKind pol).start ∧
    ∃ w, (treeKind pol).run (oneEntry k e) (treeKind pol).start = some w ∧ w.asms.length = 1 ∧
      ∃ v, (treeKind pol).node w 0 = some v ∧ v.rows = [(k, e)] ∧ v.find k = some e := by
  have s1 : (treeKind pol).act (treeKind pol).start (.new false) =
      some ⟨⟨[[]], []⟩, [⟨none, .fresh⟩]⟩ := rfl
  have s2 : (treeKind pol).act ⟨⟨[[]], []⟩, [⟨none, .fresh⟩]⟩ (.call 0 none (.call (.beginMap 1))) =
      some ⟨⟨[[], [Row.zero]], [[]]⟩, [⟨some 0, ⟨[[], [Row.zero]], 1, 0, some [], .midvalue, .initial, .absent, none, none⟩⟩]⟩ := rfl
  have s3 : (treeKind pol).act ⟨⟨[[], [Row.zero]], [[]]⟩, [⟨some 0, ⟨[[], [Row.zero]], 1, 0, some [], .midvalue, .initial, .absent, none, none⟩⟩]⟩
        (.call 0 none (.call (.assembleEntry k))) =
      some ⟨⟨[[], [(k, Row.zero.2)]], [[(k, ⟨1, 0⟩)]]⟩, [⟨some 0, ⟨[[], [(k, Row.zero.2)]], 1, 1, some [(k, ⟨1, 0⟩)], .midvalue, .midValue, .absent, none, some ⟨1, 0⟩⟩⟩]⟩ := rfl
  have s4 : (treeKind pol).act ⟨⟨[[], [(k, Row.zero.2)]], [[(k, ⟨1, 0⟩)]]⟩, [⟨some 0, ⟨[[], [(k, Row.zero.2)]], 1, 1, some [(k, ⟨1, 0⟩)], .midvalue, .midValue, .absent, none, some ⟨1, 0⟩⟩⟩]⟩
        (.call 0 none (.call (.valueWrite e))) =
      some ⟨⟨[[], [(k, e)]], [[(k, ⟨1, 0⟩)]]⟩, [⟨some 0, ⟨[[], [(k, e)]], 1, 1, some [(k, ⟨1, 0⟩)], .midvalue, .midValue, .absent, none, some ⟨1, 0⟩⟩⟩]⟩ := rfl
  have s5 : (treeKind pol).act ⟨⟨[[], [(k, e)]], [[(k, ⟨1, 0⟩)]]⟩, [⟨some 0, ⟨[[], [(k, e)]], 1, 1, some [(k, ⟨1, 0⟩)], .midvalue, .midValue, .absent, none, some ⟨1, 0⟩⟩⟩]⟩
        (.call 0 none (.call .valueDone)) =
      some ⟨⟨[[], [(k, e)]], [[(k, ⟨1, 0⟩)]]⟩, [⟨some 0, ⟨[[], [(k, e)]], 1, 1, some [(k, ⟨1, 0⟩)], .midvalue, .midValue, .value, none, some ⟨1, 0⟩⟩⟩]⟩ := rfl
  have s6 : (treeKind pol).act ⟨⟨[[], [(k, e)]], [[(k, ⟨1, 0⟩)]]⟩, [⟨some 0, ⟨[[], [(k, e)]], 1, 1, some [(k, ⟨1, 0⟩)], .midvalue, .midValue, .value, none, some ⟨1, 0⟩⟩⟩]⟩
        (.call 0 none (.call .finish)) =
      some ⟨⟨[[], [(k, e)]], [[(k, ⟨1, 0⟩)]]⟩, [⟨some 0, ⟨[[], [(k, e)]], 1, 1, some [(k, ⟨1, 0⟩)], .value, .finished, .absent, none, none⟩⟩]⟩ := rfl
  refine ⟨allowed_cons rfl s1 (allowed_cons rfl s2 (allowed_cons rfl s3 (allowed_cons rfl s4
    (allowed_cons rfl s5 (allowed_cons rfl s6 trivial))))), 
    ⟨⟨[[], [(k, e)]], [[(k, ⟨1, 0⟩)]]⟩, [⟨some 0, ⟨[[], [(k, e)]], 1, 1, some [(k, ⟨1, 0⟩)], .value, .finished, .absent, none, none⟩⟩]⟩,
    ?_, rfl, ⟨[(k, e)], fun k' => if k = k' then some e else none⟩, ?_, rfl, ?_⟩
  · simp only [oneEntry, List.map_cons, List.map_nil, BuilderKind.run, s1, s2, s3, s4, s5, s6, Option.bind_some]
  · have : ∀ k', ((TreeAsm.find [(k, (⟨1, 0⟩ : Ptr))] k').bind fun p =>
        (([[], [(k, e)]] : List (List Row))[p.arr]?.bind (·[p.idx]?)).map (·.2)) =
        if k = k' then some e else none := by
      intro k'
      simp only [TreeAsm.find]
      split <;> rfl
    show some (TreeView.mk _ _) = _
    simp only [Option.some.injEq, TreeView.mk.injEq]
    exact ⟨rfl, funext this⟩
  · simp

theorem tree_not_unchanging (pol : TreeAsm → Nat) : ¬ Unchanging (treeKind pol) := by
  intro h
  obtain ⟨ha, w, hw, hl, v, hv, -, hf⟩ := oneEntry_run pol [1] ⟨[1], .nil⟩
  obtain ⟨w', v', h1, h2, -, h4⟩ := tree_source_changes pol _ w 0 v [1] [1] ⟨[1], .nil⟩ ⟨[2], .nil⟩ hw ha hv hf
  have := h _ _ w w' 0 v hw h1 hv
  rw [h2] at this
  cases this
  rw [hf] at h4
  simp at h4

/-! ## Commits and people -/

/-- `AssignNode` of commit `i` to the new builder `j`, and then of a map of another
type in which the author is a map that holds `p`. -/
def commitAssignBoth (i j : Nat) (p : PersonInfo) : List (Act PeopleCall) :=
  [.new true, .call j (some i) .assignOwn, .call j none (.openPerson .author),
    .call j none (.childWrite .author (fun _ => p)), .call j none (.childFinish .author),
    .call j none .finish]

/-- Whatever commit was built before, giving it to a builder and then giving that
builder a map of another type with an author changes the author of the commit. -/
theorem commit_author_changes (pre : List (Act PeopleCall)) (w : World (List PersonInfo) PeopleAsm)
    (i : Nat) (c : CommitAsm) (p0 p : PersonInfo) (r : List (Option PersonInfo))
    (h : peopleKind.run pre peopleKind.start = some w)
    (ha : peopleKind.Allowed pre peopleKind.start)
    (hc : w.asms[i]? = some (.commit c))
    (hv : peopleKind.node w i = some (some p0 :: r)) :
    ∃ w' r', peopleKind.run (commitAssignBoth i w.asms.length p) w = some w' ∧
      peopleKind.node w' i = some (some p :: r') := by
  have hi := (peopleSeparation.run_inv peopleSeparation.start_inv ha h).1
  have hok : PeopleAsm.Ok w.mem (.commit c) := hi.ok i _ hc
  have hlt : i < w.asms.length := (List.getElem?_eq_some_iff.1 hc).1
  unfold BuilderKind.node at hv
  rw [hc] at hv
  simp only [Option.bind_some] at hv
  split at hv
  · rename_i hd
    have hd' : c.m = .value := by simpa [peopleKind, PeopleAsm.done] using hd
    simp only [peopleKind, PeopleAsm.view, List.map_cons, Option.some.injEq, List.cons.injEq] at hv
    have hp := hv.1
    split at hp
    · cases hp
    · rename_i hab
      cases hav : c.author.v with
      | none => rw [hav] at hp; cases hp
      | some t =>
        rw [hav] at hp
        have ht : w.mem[t]? = some p0 := hp
        have htl : t < w.mem.length := (List.getElem?_eq_some_iff.1 ht).1
        have ham : c.author.m = .value := hok.2 c rfl .author (by
          show c.author.v ≠ none
          rw [hav]; simp)
        have hrun : peopleKind.run (commitAssignBoth i w.asms.length p) w =
            some ⟨w.mem.modify t (fun _ => p), w.asms ++ [.commit ⟨⟨.value, some t, some t⟩,
              ⟨c.committer.m, c.committer.v, none⟩, .value, none, [.author], true⟩]⟩ := by
          simp only [commitAssignBoth, BuilderKind.run, BuilderKind.act, BuilderKind.argument,
            Option.bind_some]
          rw [List.getElem?_concat_length, List.getElem?_append_left
            (show i < w.asms.length from hlt), hc]
          simp only [Option.bind_some]
          rw [if_pos hd]
          simp [peopleKind, PeopleAsm.step, PeopleAsm.newCommit, List.set_append_right, CommitAsm.ready,
            CommitAsm.slot, CommitAsm.setSlot, ham, hav]
        refine ⟨_, [if c.committer.m = .absent then none else
          PeopleAsm.load (w.mem.modify t (fun _ => p)) c.committer.v], hrun, ?_⟩
        unfold BuilderKind.node
        simp only [List.getElem?_append_left hlt, hc, Option.bind_some, if_pos hd]
        simp [peopleKind, PeopleAsm.view, hab, PeopleAsm.load, hav, List.getElem?_modify, ht]
  · cases hv

/-- A commit with an author. -/
def oneAuthor (p : PersonInfo) : List (Act PeopleCall) :=
  [.new true, .call 0 none .beginMap, .call 0 none (.openPerson .author), .call 0 none (.childBegin .author),
    .call 0 none (.childWrite .author (fun _ => p)), .call 0 none (.childFinish .author),
    .call 0 none .finish]

/-- Such a commit can be built, by calls that are allowed. -/
theorem oneAuthor_run (p : PersonInfo) :
    peopleKind.Allowed (oneAuthor p) peopleKind.start ∧
    ∃ w c, peopleKind.run (oneAuthor p) peopleKind.start = some w ∧ w.asms[0]? = some (.commit c) ∧
      peopleKind.node w 0 = some [some p, none] := by
  refine ⟨?_, ⟨_, _, rfl, rfl, rfl⟩⟩
  exact allowed_cons rfl rfl (allowed_cons rfl rfl (allowed_cons rfl rfl (allowed_cons rfl rfl
    (allowed_cons rfl rfl (allowed_cons rfl rfl (allowed_cons rfl rfl trivial))))))

theorem people_not_unchanging : ¬ Unchanging peopleKind := by
  intro h
  obtain ⟨ha, w, c, hw, hc, hv⟩ := oneAuthor_run ⟨[1], [], [], []⟩
  obtain ⟨w', r', h1, h2⟩ := commit_author_changes _ w 0 c _ ⟨[2], [], [], []⟩ _ hw ha hc hv
  have := h _ _ w w' 0 _ hw h1 hv
  rw [h2] at this
  simp at this

/-! ## Cases -/

/-- Two list builders at work at the same time, one of them given a list that was
built before: the calls are allowed and nothing that was built changes. -/
example :
    ((listKind 1 (0 : Nat)).run (oneElem 5 ++ [.new false, .call 1 (some 0) .assignOwn, .new false,
        .call 2 none (.beginList 0)] ++ addElem 2 7 ++ [.call 2 none .finish]) (listKind 1 (0 : Nat)).start).map
      (fun w => [0, 1, 2].map ((listKind 1 (0 : Nat)).node w)) = some [some [5], some [5], some [7]] := by
  decide +kernel

/-- A person that was built before is taken over by a commit. -/
example : (peopleKind.run [.new false, .call 0 none (.write (fun _ => ⟨[1], [], [], []⟩)), .call 0 none .finish,
      .new true, .call 1 none .beginMap, .call 1 none (.openPerson .author),
      .call 1 (some 0) (.childAssign .author), .call 1 none .finish] peopleKind.start).map
      (fun w => [0, 1].map (peopleKind.node w)) =
    some [some [some ⟨[1], [], [], []⟩], some [some ⟨[1], [], [], []⟩, none]] := by
  decide +kernel

end Verif.Props
