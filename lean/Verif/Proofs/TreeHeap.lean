import Verif.Spec.TreeBuild

/-!
# Invariant of the tree assembler with pointers
-/

namespace Verif

open Spec

theorem lastFor_nil (k : Bytes) : lastFor [] k = none := rfl

theorem lastFor_snoc (rows : List Row) (r : Row) (k : Bytes) :
    lastFor (rows ++ [r]) k = if r.1 = k then some r.2 else lastFor rows k := by
  unfold lastFor
  rw [List.reverse_append]
  show (List.find? _ (r :: rows.reverse)).map _ = _
  rw [List.find?_cons]
  by_cases h : r.1 = k
  · simp [h]
  · simp [h]

theorem lastFor_none {rows : List Row} {k : Bytes} :
    lastFor rows k = none ↔ k ∉ rows.map Prod.fst := by
  unfold lastFor
  rw [Option.map_eq_none_iff, List.find?_eq_none]
  simp only [List.mem_reverse, decide_eq_true_eq, List.mem_map, not_exists, not_and]

namespace TreeAsm

/-- The backing array is there and long enough. -/
def Bound (s : TreeAsm) : Prop := ∃ a, s.heap[s.arr]? = some a ∧ s.len ≤ a.length

theorem Bound.lt {s : TreeAsm} (h : s.Bound) : s.arr < s.heap.length := by
  obtain ⟨a, h, -⟩ := h
  exact (List.getElem?_eq_some_iff.1 h).1

theorem table_length {s : TreeAsm} (h : s.Bound) : s.table.length = s.len := by
  obtain ⟨a, h1, h2⟩ := h
  unfold table
  rw [h1]
  simp only [Option.getD_some, List.length_take]
  omega

theorem append_bound (pol : TreeAsm → Nat) {s : TreeAsm} (h : s.Bound) (r : Row) :
    (append pol s r).Bound := by
  have hlt := h.lt
  obtain ⟨a, h1, h2⟩ := h
  unfold append
  rw [h1]
  dsimp only [Option.getD_some]
  split
  · rename_i hr
    refine ⟨a.set s.len r, ?_, ?_⟩
    · simp [hlt]
    · simp only [List.length_set]; omega
  · refine ⟨a.take s.len ++ r :: List.replicate (pol s) Row.zero, ?_, ?_⟩
    · simp
    · simp only [List.length_append, List.length_take, List.length_cons, List.length_replicate]
      omega

theorem append_len (pol : TreeAsm → Nat) (s : TreeAsm) (r : Row) :
    (append pol s r).len = s.len + 1 := by
  unfold append
  dsimp only
  split <;> rfl

theorem append_fields (pol : TreeAsm → Nat) (s : TreeAsm) (r : Row) :
    (append pol s r).map = s.map ∧ (append pol s r).m = s.m ∧
    (append pol s r).state = s.state ∧ (append pol s r).cm = s.cm ∧
    (append pol s r).ka = s.ka ∧ (append pol s r).va = s.va := by
  unfold append
  dsimp only
  split <;> exact ⟨rfl, rfl, rfl, rfl, rfl, rfl⟩

theorem append_table (pol : TreeAsm → Nat) {s : TreeAsm} (h : s.Bound) (r : Row) :
    (append pol s r).table = s.table ++ [r] := by
  have hlt := h.lt
  obtain ⟨a, h1, h2⟩ := h
  unfold append table
  rw [h1]
  dsimp only [Option.getD_some]
  split
  · rename_i hr
    simp only [List.getElem?_set_self hlt, Option.getD_some]
    rw [List.take_set, List.take_add_one, List.set_append]
    simp [List.length_take, Nat.min_eq_left h2, hr]
  · have : s.len = a.length := by omega
    rw [this, List.take_length]
    simp only [List.getElem?_concat_length, Option.getD_some]
    rw [List.take_append, List.take_of_length_le (by omega)]
    have e : a.length + 1 - a.length = 0 + 1 := by omega
    rw [e, List.take_succ_cons, List.take_zero]

theorem append_deref (pol : TreeAsm → Nat) {s : TreeAsm} (h : s.Bound) (r : Row) {p : Ptr}
    {x : Row} (hp : s.deref p = some x) (hi : p.idx < s.len) :
    (append pol s r).deref p = some x := by
  have hlt := h.lt
  obtain ⟨a, h1, h2⟩ := h
  unfold deref at hp ⊢
  obtain ⟨b, hb, hx⟩ := Option.bind_eq_some_iff.1 hp
  unfold append
  rw [h1]
  dsimp only [Option.getD_some]
  split
  · by_cases he : s.arr = p.arr
    · rw [← he] at hb ⊢
      rw [h1] at hb
      cases hb
      simp only [List.getElem?_set_self hlt, Option.bind_some]
      rw [List.getElem?_set_ne (by omega)]
      exact hx
    · simp only [List.getElem?_set_ne he, hb, Option.bind_some]
      exact hx
  · have hpl : p.arr < s.heap.length := (List.getElem?_eq_some_iff.1 hb).1
    simp only [List.getElem?_append_left hpl, hb, Option.bind_some]
    exact hx

theorem store_bound {s : TreeAsm} (h : s.Bound) (p : Ptr) (f : Row → Row) :
    (s.store p f).Bound := by
  obtain ⟨a, h1, h2⟩ := h
  unfold store Bound
  dsimp only
  by_cases he : p.arr = s.arr
  · rw [he]
    exact ⟨a.modify p.idx f, by simp [h1], by simpa using h2⟩
  · exact ⟨a, by rw [List.getElem?_modify_ne _ _ he, h1], h2⟩

theorem store_deref_ne {s : TreeAsm} {p q : Ptr} (f : Row → Row) (h : q.idx ≠ p.idx ∨ q.arr ≠ p.arr) :
    (s.store p f).deref q = s.deref q := by
  unfold store deref
  dsimp only
  by_cases he : p.arr = q.arr
  · rw [he, List.getElem?_modify_eq]
    cases hq : s.heap[q.arr]? with
    | none => rfl
    | some a =>
      show (a.modify p.idx f)[q.idx]? = a[q.idx]?
      refine List.getElem?_modify_ne _ _ ?_
      rcases h with h | h
      · exact fun h' => h h'.symm
      · exact absurd he.symm h
  · rw [List.getElem?_modify_ne _ _ he]

theorem store_deref_self {s : TreeAsm} {p : Ptr} (f : Row → Row) :
    (s.store p f).deref p = (s.deref p).map f := by
  unfold store deref
  dsimp only
  rw [List.getElem?_modify_eq]
  cases hq : s.heap[p.arr]? with
  | none => rfl
  | some a => simp

/-- The last row, through its pointer. -/
theorem table_last {s : TreeAsm} (h : s.Bound) (hl : 0 < s.len) :
    ∃ init r, s.table = init ++ [r] ∧ s.deref s.last = some r ∧ init.length = s.len - 1 := by
  obtain ⟨a, h1, h2⟩ := h
  have hlt : s.len - 1 < a.length := by omega
  refine ⟨a.take (s.len - 1), a[s.len - 1], ?_, ?_, ?_⟩
  · unfold table
    rw [h1]
    dsimp only [Option.getD_some]
    have e := List.take_succ_eq_append_getElem hlt
    rw [Nat.sub_add_cancel hl] at e
    exact e
  · unfold deref last
    simp [h1, hlt]
  · simp only [List.length_take]; omega

theorem store_table_last {s : TreeAsm} (h : s.Bound) (hl : 0 < s.len) (f : Row → Row)
    {init : List Row} {r : Row} (ht : s.table = init ++ [r]) :
    (s.store s.last f).table = init ++ [f r] := by
  have hb' := store_bound h s.last f
  have hlen : (s.store s.last f).len = s.len := rfl
  obtain ⟨init', r', ht', hd', hl'⟩ := table_last hb' (by rw [hlen]; exact hl)
  obtain ⟨init0, r0, ht0, hd0, hl0⟩ := table_last h hl
  rw [ht] at ht0
  have e1 := List.append_inj ht0 (by
    have := congrArg List.length ht0
    simp at this; exact this)
  obtain ⟨rfl, e2⟩ := e1
  cases e2
  have hd2 : (s.store s.last f).deref s.last = some (f r) := by
    rw [store_deref_self, hd0]; rfl
  have hlast : (s.store s.last f).last = s.last := rfl
  rw [hlast, hd2] at hd'
  cases hd'
  rw [ht']
  congr 1
  -- the rows before the last are untouched
  have hinit : ∀ t : TreeAsm, t.table.take (t.len - 1) = ((t.heap[t.arr]?).getD []).take (t.len - 1) := by
    intro t
    unfold table
    rw [List.take_take]
    congr 1
    omega
  have h1 : init' = (s.store s.last f).table.take (s.len - 1) := by
    rw [ht', List.take_append_of_le_length (by omega), List.take_of_length_le (by omega)]
  have h2 : init = s.table.take (s.len - 1) := by
    rw [ht, List.take_append_of_le_length (by omega), List.take_of_length_le (by omega)]
  rw [h1, h2]
  have e := hinit (s.store s.last f)
  rw [hlen] at e
  rw [e, hinit s]
  unfold store last
  dsimp only
  obtain ⟨a, ha, -⟩ := h
  rw [List.getElem?_modify_eq, ha]
  show List.take (s.len - 1) (a.modify (s.len - 1) f) = List.take (s.len - 1) a
  refine List.ext_getElem? fun i => ?_
  rw [List.getElem?_take, List.getElem?_take]
  split
  · rw [List.getElem?_modify_ne _ _ (by omega)]
  · rfl

/-- The rows whose key has been taken over: all of them, except the last one
while a key is being assembled. -/
def committed (s : TreeAsm) : List Row :=
  if s.state = .midKey then s.table.dropLast else s.table

/-- The invariant. -/
structure Inv (s : TreeAsm) : Prop where
  bound : s.Bound
  hit : ∀ k p, get s.map k = some p → ∃ r, s.deref p = some r ∧
    lastFor s.committed k = some r.2 ∧ (s.committed[p.idx]?).map Prod.fst = some k
  miss : ∀ k, get s.map k = none → lastFor s.committed k = none
  value : ∀ p, s.va = some p → (s.state = .expectValue ∨ s.state = .midValue) ∧ p = s.last ∧
    ∃ init r, s.table = init ++ [r] ∧ get s.map r.1 = some s.last
  key : ∀ p, s.ka = some p → s.state = .midKey ∧ (s.len = 0 ∨ p = s.last)
  begun : s.m = .absent → s.map = none

theorem Inv.lookup {s : TreeAsm} (h : s.Inv) (k : Bytes) :
    s.lookup k = lastFor s.committed k := by
  unfold TreeAsm.lookup
  cases hg : get s.map k with
  | none => rw [h.miss k hg]; rfl
  | some p =>
    obtain ⟨r, h1, h2, -⟩ := h.hit k p hg
    rw [h2]
    show (s.deref p).map _ = _
    rw [h1]
    rfl

theorem Inv.hit_lt {s : TreeAsm} (h : s.Inv) {k : Bytes} {p : Ptr} (hg : get s.map k = some p) :
    p.idx < s.committed.length := by
  obtain ⟨r, -, -, h3⟩ := h.hit k p hg
  cases hc : s.committed[p.idx]? with
  | none => rw [hc] at h3; cases h3
  | some x => exact (List.getElem?_eq_some_iff.1 hc).1

theorem committed_le {s : TreeAsm} (h : s.Bound) : s.committed.length ≤ s.len := by
  unfold committed
  have := table_length h
  split
  · rw [List.length_dropLast]; omega
  · omega

theorem fresh_inv : fresh.Inv where
  bound := ⟨[], rfl, Nat.le_refl _⟩
  hit := by intro k p h; unfold fresh at h; unfold get at h; cases h
  miss := by intro k _; rfl
  value := by intro p h; cases h
  key := by intro p h; cases h
  begun := fun _ => rfl

theorem beginMap_inv {s s' : TreeAsm} {hint : Int} (h : s.Inv) (hs : s.beginMap hint = .ok s') :
    s'.Inv := by
  unfold beginMap at hs
  cases hm : s.m <;> rw [hm] at hs <;> try (cases hs; done)
  cases hs
  have hmap := h.begun hm
  have htab : ∀ t : TreeAsm, t.len = 0 → t.committed = [] := by
    intro t ht
    have : t.table = [] := by unfold table; rw [ht]; rfl
    unfold committed
    rw [this]
    split <;> rfl
  refine ⟨⟨List.replicate hint.toNat Row.zero, by simp, Nat.zero_le _⟩, ?_, ?_, ?_, ?_, ?_⟩
  · intro k p hk; unfold get at hk; cases hk
  · intro k _
    rw [htab _ rfl]
    rfl
  · intro p hp
    obtain ⟨-, -, init, r, -, hr⟩ := h.value p hp
    rw [hmap] at hr
    unfold get at hr
    cases hr
  · intro p hp
    exact ⟨(h.key p hp).1, .inl rfl⟩
  · intro hx; cases hx

theorem ready_inv {s s' : TreeAsm} (h : s.Inv) (hs : s.ready = some s') :
    s'.Inv ∧ s'.state = .initial ∧ s'.table = s.table ∧ s'.committed = s.committed ∧
      s'.map = s.map ∧ s'.heap = s.heap ∧ s'.m = s.m := by
  unfold ready at hs
  cases hst : s.state <;> rw [hst] at hs <;> try (cases hs; done)
  · cases hs
    exact ⟨h, hst, rfl, rfl, rfl, rfl, rfl⟩
  · dsimp only at hs
    unfold tidyValue at hs
    split at hs
    · cases hs
      have hc : ({ s with va := none, cm := .absent, state := .initial } : TreeAsm).committed =
          s.committed := by
        unfold committed
        rw [hst]
        rfl
      refine ⟨⟨h.bound, ?_, ?_, ?_, ?_, h.begun⟩, rfl, rfl, hc, rfl, rfl, rfl⟩
      · intro k p hk
        rw [hc]
        exact h.hit k p hk
      · intro k hk
        rw [hc]
        exact h.miss k hk
      · intro p hp; cases hp
      · intro p hp
        have := (h.key p hp).1
        rw [hst] at this
        cases this
    · cases hs

theorem Inv.initial_none {s : TreeAsm} (h : s.Inv) (hi : s.state = .initial) :
    s.va = none ∧ s.ka = none ∧ s.committed = s.table := by
  refine ⟨?_, ?_, ?_⟩
  · cases hv : s.va with
    | none => rfl
    | some p =>
      rcases (h.value p hv).1 with h' | h' <;> rw [hi] at h' <;> cases h'
  · cases hv : s.ka with
    | none => rfl
    | some p =>
      have h' := (h.key p hv).1
      rw [hi] at h'; cases h'
  · unfold committed
    rw [hi]
    rfl

/-- Rows that are appended after the committed ones do not disturb the map. -/
theorem hit_append (pol : TreeAsm → Nat) {s : TreeAsm} (h : s.Inv) (r : Row) {k : Bytes} {p : Ptr}
    (hg : get s.map k = some p) : ∃ x, (append pol s r).deref p = some x ∧
      lastFor s.committed k = some x.2 ∧ (s.committed[p.idx]?).map Prod.fst = some k := by
  obtain ⟨x, h1, h2, h3⟩ := h.hit k p hg
  refine ⟨x, append_deref pol h.bound r h1 ?_, h2, h3⟩
  have := h.hit_lt hg
  have := committed_le h.bound
  omega

theorem get_put {mm : List (Bytes × Ptr)} {k k' : Bytes} {p : Ptr} :
    get (some ((k, p) :: mm)) k' = if k = k' then some p else get (some mm) k' := rfl

theorem committed_eq {s : TreeAsm} (h : s.state ≠ .midKey) : s.committed = s.table := by
  unfold committed
  rw [if_neg h]

/-- A pointer to the last row, its key in the map: the last row may be written. -/
theorem last_facts {s : TreeAsm} (h : s.Bound) {init : List Row} {r : Row}
    (ht : s.table = init ++ [r]) :
    0 < s.len ∧ s.deref s.last = some r ∧ init.length = s.len - 1 := by
  have hl := table_length h
  have hpos : 0 < s.len := by
    rw [← hl, ht]; simp
  obtain ⟨init', r', h1, h2, h3⟩ := table_last h hpos
  rw [ht] at h1
  have e := List.append_inj h1 (by
    have := congrArg List.length h1
    simpa using this)
  obtain ⟨rfl, e2⟩ := e
  cases e2
  exact ⟨hpos, h2, h3⟩

/-- The last row of a table with a known form is reached by `last`, and the map
gets a binding for its key: every other binding is as before. -/
theorem commit_inv {s s' : TreeAsm} {init : List Row} {r : Row} {mm : List (Bytes × Ptr)}
    (hb : s.Bound) (hmap : s.map = some mm) (ht : s.table = init ++ [r])
    (hit : ∀ k p, get s.map k = some p → ∃ x, s.deref p = some x ∧
      lastFor init k = some x.2 ∧ (init[p.idx]?).map Prod.fst = some k)
    (miss : ∀ k, get s.map k = none → lastFor init k = none)
    (hm : s.m ≠ .absent) (hka : s.ka = none)
    (hs' : s' = { s with map := some ((r.1, s.last) :: mm), va := some s.last, state := .midValue,
                         cm := s'.cm }) :
    s'.Inv := by
  obtain ⟨hpos, hd, hlen⟩ := last_facts hb ht
  have hc : s'.committed = init ++ [r] := by
    rw [hs']
    rw [committed_eq (by intro h; cases h)]
    exact ht
  have hder : s'.deref = s.deref := by rw [hs']; rfl
  have hlast : s'.last = s.last := by rw [hs']; rfl
  have hgm : ∀ k, get s'.map k = if r.1 = k then some s.last else get s.map k := by
    intro k
    rw [hs', hmap]
    exact get_put
  refine ⟨by rw [hs']; exact hb, ?_, ?_, ?_, ?_, ?_⟩
  · intro k p hk
    rw [hgm] at hk
    rw [hc, hder, lastFor_snoc]
    split at hk
    · rename_i he
      cases hk
      refine ⟨r, hd, by rw [if_pos he], ?_⟩
      have : s.last.idx = init.length := hlen.symm
      rw [this]
      simp [he]
    · rename_i he
      obtain ⟨x, h1, h2, h3⟩ := hit k p hk
      refine ⟨x, h1, by rw [if_neg he]; exact h2, ?_⟩
      have hlt : p.idx < init.length := by
        cases hx : init[p.idx]? with
        | none => rw [hx] at h3; cases h3
        | some y => exact (List.getElem?_eq_some_iff.1 hx).1
      rw [List.getElem?_append_left hlt]
      exact h3
  · intro k hk
    rw [hgm] at hk
    rw [hc, lastFor_snoc]
    split at hk
    · cases hk
    · rename_i he
      rw [if_neg he]
      exact miss k hk
  · intro p hp
    rw [hlast]
    rw [hs'] at hp
    cases hp
    refine ⟨.inr (by rw [hs']), rfl, init, r, by rw [hs']; exact ht, ?_⟩
    rw [hgm, if_pos rfl]
  · intro p hp
    rw [hs'] at hp
    rw [hka] at hp
    cases hp
  · intro hx
    rw [hs'] at hx
    exact absurd hx hm

/-- What `AssembleEntry` did if it succeeded. -/
theorem assembleEntry_ok {pol : TreeAsm → Nat} {s s' : TreeAsm} {k : Bytes} (h : s.Inv)
    (hs : s.assembleEntry pol k = .ok s') :
    s'.Inv ∧ k ∉ s.committed.map Prod.fst ∧
      s'.committed = s.committed ++ [(k, Row.zero.2)] ∧ s'.state = .midValue ∧
      s'.va = some s'.last ∧ (∀ s0, s.ready = some s0 → s'.cm = s0.cm) ∧ s'.m = s.m := by
  unfold assembleEntry at hs
  cases hr : s.ready with
  | none => rw [hr] at hs; cases hs
  | some s0 =>
    rw [hr] at hs
    obtain ⟨h0, hi, ht, hc, hmap, -, hmm⟩ := ready_inv h hr
    obtain ⟨hva, hka, hct⟩ := h0.initial_none hi
    dsimp only at hs
    cases hg : get s0.map k with
    | some p => rw [hg] at hs; cases hs
    | none =>
      rw [hg] at hs
      dsimp only at hs
      obtain ⟨f1, f2, f3, f4, f5, f6⟩ := append_fields pol s0 (k, Row.zero.2)
      unfold put at hs
      cases hm : s0.map with
      | none =>
        rw [show ({ append pol s0 (k, Row.zero.2) with state := MaState.midValue } : TreeAsm).map =
          none from f1.trans hm] at hs
        cases hs
      | some mm =>
        rw [show ({ append pol s0 (k, Row.zero.2) with state := MaState.midValue } : TreeAsm).map =
          some mm from f1.trans hm] at hs
        cases hs
        have hb := append_bound pol h0.bound (k, Row.zero.2)
        have htab := append_table pol h0.bound (k, Row.zero.2)
        have hpart : (append pol s0 (k, Row.zero.2)).m ≠ .absent := by
          rw [f2]
          intro hx
          have := h0.begun hx
          rw [hm] at this
          cases this
        refine ⟨commit_inv (init := s0.table) (r := (k, Row.zero.2)) hb (f1.trans hm) htab ?_ ?_ hpart
          (f5.trans hka) rfl, ?_, ?_, rfl, rfl, ?_, ?_⟩
        · intro k' p' hk'
          rw [f1] at hk'
          obtain ⟨x, h1, h2, h3⟩ := hit_append pol h0 (k, Row.zero.2) hk'
          rw [hct] at h2 h3
          exact ⟨x, h1, h2, h3⟩
        · intro k' hk'
          rw [f1] at hk'
          have := h0.miss k' hk'
          rw [hct] at this
          exact this
        · rw [← hc]
          exact lastFor_none.1 (h0.miss k hg)
        · rw [committed_eq (by intro h; cases h), ← hc, hct]
          exact htab
        · intro s1 hs1
          cases hs1
          exact f4
        · rw [← hmm]
          exact f2

theorem assembleEntry_err {pol : TreeAsm → Nat} {s s' : TreeAsm} {e : Err} {k : Bytes} (h : s.Inv)
    (hs : s.assembleEntry pol k = .err e s') :
    s'.Inv ∧ k ∈ s.committed.map Prod.fst ∧ e = .repeatedKey ∧
      s'.committed = s.committed ∧ s'.table = s.table ∧ s'.state = .initial ∧
      s.ready = some s' ∧ s'.m = s.m := by
  unfold assembleEntry at hs
  cases hr : s.ready with
  | none => rw [hr] at hs; cases hs
  | some s0 =>
    rw [hr] at hs
    obtain ⟨h0, hi, ht, hc, hmap, -, hmm⟩ := ready_inv h hr
    dsimp only at hs
    cases hg : get s0.map k with
    | some p =>
      rw [hg] at hs
      cases hs
      refine ⟨h0, ?_, rfl, hc, ht, hi, rfl, hmm⟩
      obtain ⟨r, -, h2, -⟩ := h0.hit k p hg
      rw [← hc]
      refine Classical.byContradiction fun hn => ?_
      rw [lastFor_none.2 hn] at h2
      cases h2
    | none =>
      rw [hg] at hs
      dsimp only at hs
      unfold put at hs
      split at hs
      · cases hs
      · split at hs <;> cases hs

theorem assembleKey_ok {pol : TreeAsm → Nat} {s s' : TreeAsm} (h : s.Inv)
    (hs : s.assembleKey pol = .ok s') :
    s'.Inv ∧ s'.committed = s.committed ∧ s'.state = .midKey ∧ s'.ka = some s'.last ∧
      0 < s'.len ∧ (∀ s0, s.ready = some s0 → s'.cm = s0.cm) ∧ s'.m = s.m ∧
      s'.map = s.map := by
  unfold assembleKey at hs
  cases hr : s.ready with
  | none => rw [hr] at hs; cases hs
  | some s0 =>
    rw [hr] at hs
    obtain ⟨h0, hi, ht, hc, hmap, -, hmm⟩ := ready_inv h hr
    obtain ⟨hva, hka, hct⟩ := h0.initial_none hi
    dsimp only at hs
    cases hs
    obtain ⟨f1, f2, f3, f4, f5, f6⟩ := append_fields pol s0 Row.zero
    have hb := append_bound pol h0.bound Row.zero
    have htab := append_table pol h0.bound Row.zero
    have hc' : ({ append pol s0 Row.zero with
        state := .midKey, ka := some (append pol s0 Row.zero).last } : TreeAsm).committed =
        s0.committed := by
      unfold committed
      rw [if_pos rfl, hi, if_neg (by intro h; cases h)]
      show List.dropLast (append pol s0 Row.zero).table = _
      rw [htab, List.dropLast_concat]
    refine ⟨⟨hb, ?_, ?_, ?_, ?_, ?_⟩, by rw [hc', hc], rfl, rfl, ?_, ?_, f2.trans hmm, f1.trans hmap⟩
    · intro k p hk
      rw [hc']
      exact hit_append pol h0 Row.zero (by rw [← f1]; exact hk)
    · intro k hk
      rw [hc']
      exact h0.miss k (by rw [← f1]; exact hk)
    · intro p hp
      have : (append pol s0 Row.zero).va = some p := hp
      rw [f6, hva] at this
      cases this
    · intro p hp
      cases hp
      exact ⟨rfl, .inr rfl⟩
    · intro hx
      exact f1.trans (h0.begun (f2.symm.trans hx))
    · show 0 < (append pol s0 Row.zero).len
      rw [append_len]; omega
    · intro s1 hs1
      cases hs1
      exact f4

theorem keyAssign_ok {s s' : TreeAsm} {k : Bytes} (h : s.Inv) (hs : s.keyAssign k = .ok s') :
    s'.Inv ∧ s'.committed = s.committed ∧ s'.state = .midKey ∧ s'.cm = .value ∧ s'.m = s.m ∧
      s'.map = s.map ∧ s'.len = s.len ∧
      (s.ka = some s.last → 0 < s.len →
        ∃ v, s'.table = s.committed ++ [(k, v)]) := by
  unfold keyAssign at hs
  have hs2 : ∃ p, s.ka = some p ∧ s' = { s.store p (fun r => (k, r.2)) with cm := .value } := by
    cases hcm : s.cm <;> rw [hcm] at hs <;> dsimp only at hs <;> try (cases hs; done)
    all_goals
      cases hka : s.ka with
      | none => rw [hka] at hs; cases hs
      | some p => rw [hka] at hs; cases hs; exact ⟨p, rfl, rfl⟩
  obtain ⟨p, hka, rfl⟩ := hs2
  obtain ⟨hst, hp⟩ := h.key p hka
  have hb := store_bound h.bound p (fun r => (k, r.2))
  have hc : ({ s.store p (fun r => (k, r.2)) with cm := .value } : TreeAsm).committed =
      s.committed := by
    unfold committed
    rw [show ({ s.store p (fun r => (k, r.2)) with cm := .value } : TreeAsm).state = s.state from rfl,
      if_pos hst, if_pos hst]
    show (s.store p (fun r => (k, r.2))).table.dropLast = s.table.dropLast
    rcases hp with hp | rfl
    · have e1 : s.table = [] := by unfold table; rw [hp]; rfl
      have e2 : (s.store p (fun r => (k, r.2))).table = [] := by
        unfold table
        rw [show (s.store p (fun r => (k, r.2))).len = 0 from hp]
        rfl
      rw [e1, e2]
    · rcases Nat.eq_zero_or_pos s.len with hz | hpos
      · have e1 : s.table = [] := by unfold table; rw [hz]; rfl
        have e2 : (s.store s.last (fun r => (k, r.2))).table = [] := by
          unfold table
          rw [show (s.store s.last (fun r => (k, r.2))).len = 0 from hz]
          rfl
        rw [e1, e2]
      · obtain ⟨init, r, ht, -, -⟩ := table_last h.bound hpos
        rw [store_table_last h.bound hpos _ ht, ht, List.dropLast_concat, List.dropLast_concat]
  refine ⟨⟨hb, ?_, ?_, ?_, ?_, ?_⟩, hc, hst, rfl, rfl, rfl, rfl, ?_⟩
  · intro k' q hk'
    rw [hc]
    obtain ⟨r, h1, h2, h3⟩ := h.hit k' q hk'
    refine ⟨r, ?_, h2, h3⟩
    have hlt := h.hit_lt hk'
    have hlen : s.committed.length = s.len - 1 := by
      unfold committed
      rw [if_pos hst, List.length_dropLast, table_length h.bound]
    show (s.store p (fun r => (k, r.2))).deref q = some r
    rcases hp with hp | rfl
    · omega
    · rw [store_deref_ne _ (.inl (by show q.idx ≠ s.len - 1; omega))]
      exact h1
  · intro k' hk'
    rw [hc]
    exact h.miss k' hk'
  · intro q hq
    rcases (h.value q hq).1 with h' | h' <;> rw [hst] at h' <;> cases h'
  · intro q hq
    exact h.key q hq
  · exact h.begun
  · intro he hpos
    rw [hka] at he
    cases he
    obtain ⟨init, r, ht, -, -⟩ := table_last h.bound hpos
    refine ⟨r.2, ?_⟩
    show (s.store s.last (fun r => (k, r.2))).table = _
    rw [store_table_last h.bound hpos _ ht]
    unfold committed
    rw [if_pos hst, ht, List.dropLast_concat]

theorem assembleValue_ok {s s' : TreeAsm} (h : s.Inv) (hs : s.assembleValue = .ok s') :
    s'.Inv ∧ s'.committed = s.table ∧ s'.state = .midValue ∧ s'.m = s.m ∧
      (s.state = .midKey → s'.cm = .absent ∧ s'.va = some s'.last) := by
  unfold assembleValue at hs
  cases hst : s.state <;> rw [hst] at hs <;> try (cases hs; done)
  · dsimp only at hs
    split at hs
    · cases hl : s.table.getLast? with
      | none => rw [hl] at hs; cases hs
      | some r =>
        rw [hl] at hs
        obtain ⟨init, ht⟩ := List.getLast?_eq_some_iff.1 hl
        dsimp only at hs
        unfold put at hs
        dsimp only at hs
        cases hm : s.map with
        | none => rw [hm] at hs; cases hs
        | some mm =>
          rw [hm] at hs
          cases hs
          have hci : s.committed = init := by
            unfold committed
            rw [if_pos hst, ht, List.dropLast_concat]
          refine ⟨commit_inv (s := { s with ka := none, cm := .absent, state := .expectValue })
            (init := init) (r := r) (mm := mm) h.bound hm ht ?_ ?_ ?_ rfl ?_, ?_, rfl, rfl, ?_⟩
          · intro k p hk
            rw [← hci]
            exact h.hit k p hk
          · intro k hk
            rw [← hci]
            exact h.miss k hk
          · intro hx
            have := h.begun hx
            rw [hm] at this
            cases this
          · rfl
          · exact committed_eq (by intro h; cases h)
          · intro _
            exact ⟨rfl, rfl⟩
    · cases hs
  · cases hs
    have hc : ({ s with state := .midValue } : TreeAsm).committed = s.committed := by
      unfold committed
      rw [hst]
      rfl
    refine ⟨⟨h.bound, ?_, ?_, ?_, ?_, h.begun⟩, ?_, rfl, rfl, ?_⟩
    · intro k p hk; rw [hc]; exact h.hit k p hk
    · intro k hk; rw [hc]; exact h.miss k hk
    · intro p hp
      obtain ⟨-, h2⟩ := h.value p hp
      exact ⟨.inr rfl, h2⟩
    · intro p hp
      have := (h.key p hp).1
      rw [hst] at this
      cases this
    · exact committed_eq (by intro h; cases h)
    · intro hx; cases hx

/-- Only the mark differs. -/
theorem cm_inv {s : TreeAsm} (h : s.Inv) (c : Maybe) : ({ s with cm := c } : TreeAsm).Inv :=
  ⟨h.bound, h.hit, h.miss, h.value, h.key, h.begun⟩

theorem valueWrite_ok {s s' : TreeAsm} {e : TreeEntry} (h : s.Inv) (hs : s.valueWrite e = .ok s') :
    s'.Inv ∧ s'.committed.map Prod.fst = s.committed.map Prod.fst ∧ s'.state = s.state ∧
      s'.cm = s.cm ∧ s'.m = s.m ∧ s'.va = s.va ∧ s'.last = s.last ∧
      (s.va = some s.last → ∀ init r, s.committed = init ++ [r] →
        s'.committed = init ++ [(r.1, e)]) := by
  unfold valueWrite at hs
  have hs2 : (s.va = none ∧ s' = s) ∨
      ∃ p, s.va = some p ∧ s' = s.store p (fun r => (r.1, e)) := by
    cases hcm : s.cm <;> rw [hcm] at hs <;> dsimp only at hs <;> try (cases hs; done)
    all_goals
      cases hva : s.va with
      | none => rw [hva] at hs; cases hs; exact .inl ⟨rfl, rfl⟩
      | some p => rw [hva] at hs; cases hs; exact .inr ⟨p, rfl, rfl⟩
  rcases hs2 with ⟨hva, rfl⟩ | ⟨p, hva, rfl⟩
  · refine ⟨h, rfl, rfl, rfl, rfl, rfl, rfl, ?_⟩
    intro hx
    rw [hva] at hx
    cases hx
  · obtain ⟨hst, rfl, init, r, ht, hgl⟩ := h.value p hva
    have hnk : s.state ≠ .midKey := by rcases hst with h' | h' <;> rw [h'] <;> intro h <;> cases h
    obtain ⟨hpos, hd, hlen⟩ := last_facts h.bound ht
    have hb := store_bound h.bound s.last (fun r => (r.1, e))
    have htab := store_table_last h.bound hpos (fun r => (r.1, e)) ht
    have hc0 : s.committed = init ++ [r] := by rw [committed_eq hnk, ht]
    have hc1 : (s.store s.last (fun r => (r.1, e))).committed = init ++ [(r.1, e)] := by
      rw [committed_eq (show (s.store s.last (fun r => (r.1, e))).state ≠ .midKey from hnk), htab]
    refine ⟨⟨hb, ?_, ?_, ?_, ?_, ?_⟩, ?_, rfl, rfl, rfl, rfl, rfl, ?_⟩
    · intro k q hk
      have hk' : get s.map k = some q := hk
      rw [hc1, lastFor_snoc]
      obtain ⟨x, h1, h2, h3⟩ := h.hit k q hk'
      rw [hc0, lastFor_snoc] at h2
      rw [hc0] at h3
      by_cases he : r.1 = k
      · rw [he, hk'] at hgl
        cases hgl
        refine ⟨(r.1, e), ?_, by rw [if_pos he], ?_⟩
        · rw [store_deref_self, hd]; rfl
        · have : s.last.idx = init.length := hlen.symm
          rw [this]
          simp [he]
      · rw [if_neg he] at h2 ⊢
        have hne : q.idx ≠ s.last.idx := by
          intro hx
          have e2 : s.last.idx = init.length := hlen.symm
          rw [hx, e2] at h3
          simp at h3
          exact he h3
        refine ⟨x, ?_, h2, ?_⟩
        · rw [store_deref_ne _ (.inl hne)]; exact h1
        · have hlt : q.idx < init.length + 1 := by
            have := h.hit_lt hk'
            rw [hc0] at this
            simpa using this
          have e2 : s.last.idx = init.length := hlen.symm
          have hlt' : q.idx < init.length := by omega
          rw [List.getElem?_append_left hlt'] at h3 ⊢
          exact h3
    · intro k hk
      have := h.miss k hk
      rw [hc0, lastFor_snoc] at this
      rw [hc1, lastFor_snoc]
      split at this
      · cases this
      · rename_i he
        rw [if_neg he]
        exact this
    · intro q hq
      have := h.value q hq
      exact ⟨this.1, this.2.1, init, (r.1, e), htab, hgl⟩
    · intro q hq
      exact h.key q hq
    · exact h.begun
    · rw [hc1, hc0]; simp
    · intro _ init' r' hx
      rw [hc0] at hx
      have e3 := List.append_inj hx (by
        have := congrArg List.length hx
        simpa using this)
      obtain ⟨rfl, e4⟩ := e3
      cases e4
      exact hc1

theorem valueBegin_ok {s s' : TreeAsm} (hs : s.valueBegin = .ok s') :
    s.cm = .absent ∧ s' = { s with cm := .midvalue } := by
  unfold valueBegin at hs
  split at hs
  · rename_i hc
    cases hs
    exact ⟨hc, rfl⟩
  · cases hs

theorem valueDone_ok {s s' : TreeAsm} (hs : s.valueDone = .ok s') :
    s' = { s with cm := .value } := by
  unfold valueDone at hs
  split at hs
  · cases hs
  · cases hs
  · cases hs; rfl

theorem finish_ok {s s' : TreeAsm} (h : s.Inv) (hs : s.finish = .ok s') :
    s'.Inv ∧ s'.committed = s.committed ∧ s'.table = s.table ∧ s'.state = .finished ∧
      s'.m = .value ∧ s'.committed = s'.table := by
  unfold finish at hs
  cases hr : s.ready with
  | none => rw [hr] at hs; cases hs
  | some s0 =>
    rw [hr] at hs
    obtain ⟨h0, hi, ht, hc, hmap, -, hmm⟩ := ready_inv h hr
    obtain ⟨hva, hka, hct⟩ := h0.initial_none hi
    cases hs
    have hc' : ({ s0 with state := .finished, m := .value } : TreeAsm).committed = s0.committed := by
      unfold committed
      rw [hi]
      rfl
    refine ⟨⟨h0.bound, ?_, ?_, ?_, ?_, ?_⟩, by rw [hc', hc], ht, rfl, rfl, by rw [hc', hct]; rfl⟩
    · intro k p hk; rw [hc']; exact h0.hit k p hk
    · intro k hk; rw [hc']; exact h0.miss k hk
    · intro p hp
      have : s0.va = some p := hp
      rw [hva] at this; cases this
    · intro p hp
      have : s0.ka = some p := hp
      rw [hka] at this; cases this
    · intro hx; cases hx

/-- Every call preserves the invariant. -/
theorem step_inv {pol : TreeAsm → Nat} {s s' : TreeAsm} {c : TreeCall} (h : s.Inv)
    (hs : s.step pol c = .ok s' ∨ ∃ e, s.step pol c = .err e s') : s'.Inv := by
  rcases hs with hs | ⟨e, hs⟩
  · cases c with
    | beginMap hint => exact beginMap_inv h hs
    | assembleEntry k => exact (assembleEntry_ok h hs).1
    | assembleKey => exact (assembleKey_ok h hs).1
    | keyAssign k => exact (keyAssign_ok h hs).1
    | assembleValue => exact (assembleValue_ok h hs).1
    | valueBegin => rw [(valueBegin_ok hs).2]; exact cm_inv h _
    | valueWrite e => exact (valueWrite_ok h hs).1
    | valueDone => rw [valueDone_ok hs]; exact cm_inv h _
    | finish => exact (finish_ok h hs).1
  · cases c with
    | assembleEntry k => exact (assembleEntry_err h hs).1
    | beginMap hint =>
      have hs : s.beginMap hint = .err e s' := hs
      unfold beginMap at hs
      split at hs <;> cases hs
    | assembleKey =>
      have hs : s.assembleKey pol = .err e s' := hs
      unfold assembleKey at hs
      split at hs <;> cases hs
    | keyAssign k =>
      have hs : s.keyAssign k = .err e s' := hs
      unfold keyAssign at hs
      split at hs
      · cases hs
      · cases hs
      · split at hs <;> cases hs
    | assembleValue =>
      have hs : s.assembleValue = .err e s' := hs
      unfold assembleValue put at hs
      repeat' (split at hs)
      all_goals first
        | cases hs
        | (rename_i h1; split at h1 <;> cases h1; done)
        | skip
    | valueBegin =>
      have hs : s.valueBegin = .err e s' := hs
      unfold valueBegin at hs
      split at hs <;> cases hs
    | valueWrite e =>
      have hs : s.valueWrite e = .err _ s' := hs
      unfold valueWrite at hs
      split at hs
      · cases hs
      · cases hs
      · split at hs <;> cases hs
    | valueDone =>
      have hs : s.valueDone = .err e s' := hs
      unfold valueDone at hs
      split at hs <;> cases hs
    | finish =>
      have hs : s.finish = .err e s' := hs
      unfold finish at hs
      split at hs <;> cases hs

theorem runCalls_inv {pol : TreeAsm → Nat} : ∀ {calls : List TreeCall} {s s' : TreeAsm}, s.Inv →
    runCalls pol calls s = some s' → s'.Inv
  | [], s, s', h, hr => by cases hr; exact h
  | c :: r, s, s', h, hr => by
    unfold runCalls at hr
    cases hc : s.step pol c with
    | ok s1 =>
      rw [hc] at hr
      exact runCalls_inv (step_inv h (.inl hc)) hr
    | err e s1 =>
      rw [hc] at hr
      exact runCalls_inv (step_inv h (.inr ⟨e, hc⟩)) hr
    | panic => rw [hc] at hr; cases hr

end TreeAsm

end Verif
