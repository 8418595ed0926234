import Verif.Proofs.TreeHeap
import Verif.Proofs.RoundTrip

/-!
# Building trees: names and pointers (C39, C40)
-/

namespace Verif.Props

open Verif Spec

/-! ## Every sequence of calls -/

/-- Whatever calls were made and however `append` grew the table, once no key is
half assembled a lookup gives the value of the last row with that name. -/
theorem tree_lookup_last_row (pol : TreeAsm → Nat) (calls : List TreeCall) (s : TreeAsm)
    (h : TreeAsm.runCalls pol calls .fresh = some s) (hk : s.state ≠ .midKey) (k : Bytes) :
    s.lookup k = lastFor s.table k := by
  have hi := TreeAsm.runCalls_inv TreeAsm.fresh_inv h
  rw [hi.lookup k, TreeAsm.committed_eq hk]

/-- The same for a finished tree. -/
theorem tree_lookup_finished (pol : TreeAsm → Nat) (calls : List TreeCall) (s s' : TreeAsm)
    (h : TreeAsm.runCalls pol calls .fresh = some s) (hf : s.step pol .finish = .ok s') (k : Bytes) :
    s'.lookup k = lastFor s'.table k ∧ s'.table = s.table := by
  have hi := TreeAsm.runCalls_inv TreeAsm.fresh_inv h
  obtain ⟨h1, h2, h3, h4, -, h6⟩ := TreeAsm.finish_ok hi hf
  exact ⟨by rw [h1.lookup k, h6], h3⟩

/-! ## Sequences of items -/

/-- The calls that assign one value. -/
def valueCalls (ws : List TreeEntry) (e : TreeEntry) : List TreeCall :=
  .valueBegin :: ws.map .valueWrite ++ [.valueWrite e, .valueDone]

/-- A caller adds an item, and leaves the value out if the name was refused. -/
def runItem (pol : TreeAsm → Nat) (s : TreeAsm) : TreeItem → Option TreeAsm
  | .entry k ws e =>
    match s.step pol (.assembleEntry k) with
    | .ok s => TreeAsm.runCalls pol (valueCalls ws e) s
    | .err _ s => some s
    | .panic => none
  | .keyed k ws e =>
    TreeAsm.runCalls pol ([.assembleKey, .keyAssign k, .assembleValue] ++ valueCalls ws e) s

/-- A caller begins a map and adds items. -/
def runItems (pol : TreeAsm → Nat) (hint : Int) (items : List TreeItem) : Option TreeAsm :=
  match TreeAsm.fresh.step pol (.beginMap hint) with
  | .ok s => items.foldlM (runItem pol) s
  | _ => none

/-- Between items: the map is there, and there is no unfinished key or value. -/
def Between (s : TreeAsm) : Prop :=
  s.Inv ∧ s.map ≠ none ∧
    ((s.state = .initial ∧ s.cm = .absent) ∨ (s.state = .midValue ∧ s.cm = .value))

theorem between_ready {s : TreeAsm} (h : Between s) :
    ∃ s0, s.ready = some s0 ∧ s0.cm = .absent ∧ s0.map ≠ none := by
  obtain ⟨hi, hm, ⟨h1, h2⟩ | ⟨h1, h2⟩⟩ := h
  · exact ⟨s, by unfold TreeAsm.ready; rw [h1], h2, hm⟩
  · refine ⟨{ s with va := none, cm := .absent, state := .initial }, ?_, rfl, hm⟩
    unfold TreeAsm.ready
    rw [h1]
    show s.tidyValue = _
    unfold TreeAsm.tidyValue
    rw [if_pos h2]

theorem map_of_committed {s : TreeAsm} (hi : s.Inv) {init : List Row} {r : Row}
    (hc : s.committed = init ++ [r]) : s.map ≠ none := by
  intro hm
  have h1 := hi.lookup r.1
  rw [hc, lastFor_snoc, if_pos rfl] at h1
  unfold TreeAsm.lookup at h1
  rw [hm] at h1
  unfold TreeAsm.get at h1
  cases h1

theorem writes_ok (pol : TreeAsm → Nat) (k : Bytes) (init : List Row) :
    ∀ (ws : List TreeEntry) (e0 e : TreeEntry) (s : TreeAsm), s.Inv → s.state = .midValue →
      s.cm = .midvalue → s.va = some s.last → s.committed = init ++ [(k, e0)] →
      ∃ s', TreeAsm.runCalls pol (ws.map TreeCall.valueWrite ++ [.valueWrite e, .valueDone]) s =
          some s' ∧ Between s' ∧ s'.committed = init ++ [(k, e)] ∧ s'.state = .midValue := by
  have hone : ∀ (e0 e : TreeEntry) (s : TreeAsm), s.Inv → s.state = .midValue →
      s.cm = .midvalue → s.va = some s.last → s.committed = init ++ [(k, e0)] →
      ∃ s', s.step pol (.valueWrite e) = .ok s' ∧ s'.Inv ∧ s'.state = .midValue ∧
        s'.cm = .midvalue ∧ s'.va = some s'.last ∧ s'.committed = init ++ [(k, e)] := by
    intro e0 e s hi hst hcm hva hc
    have hw : s.valueWrite e = .ok (s.store s.last (fun r => (r.1, e))) := by
      unfold TreeAsm.valueWrite
      rw [hcm, hva]
    obtain ⟨h1, -, h3, h4, -, h6, h7, h8⟩ := TreeAsm.valueWrite_ok hi hw
    exact ⟨_, hw, h1, h3.trans hst, h4.trans hcm, by rw [h6, hva, h7], h8 hva _ _ hc⟩
  intro ws
  induction ws with
  | nil =>
    intro e0 e s hi hst hcm hva hc
    obtain ⟨s', h1, h2, h3, h4, h5, h6⟩ := hone e0 e s hi hst hcm hva hc
    refine ⟨{ s' with cm := .value }, ?_, ⟨TreeAsm.cm_inv h2 _, (map_of_committed h2 h6 : s'.map ≠ none), .inr ⟨h3, rfl⟩⟩,
      h6, h3⟩
    show TreeAsm.runCalls pol [.valueWrite e, .valueDone] s = _
    unfold TreeAsm.runCalls
    rw [h1]
    show TreeAsm.runCalls pol [.valueDone] s' = _
    unfold TreeAsm.runCalls
    have : s'.step pol .valueDone = .ok { s' with cm := .value } := by
      show s'.valueDone = _
      unfold TreeAsm.valueDone
      rw [h4]
    rw [this]
    rfl
  | cons w ws ih =>
    intro e0 e s hi hst hcm hva hc
    obtain ⟨s', h1, h2, h3, h4, h5, h6⟩ := hone e0 w s hi hst hcm hva hc
    obtain ⟨s2, h7, h8⟩ := ih w e s' h2 h3 h4 h5 h6
    refine ⟨s2, ?_, h8⟩
    show TreeAsm.runCalls pol (.valueWrite w :: (ws.map TreeCall.valueWrite ++ _)) s = _
    unfold TreeAsm.runCalls
    rw [h1]
    exact h7

theorem value_ok (pol : TreeAsm → Nat) (k : Bytes) (init : List Row) (ws : List TreeEntry)
    (e0 e : TreeEntry) (s : TreeAsm) (hi : s.Inv) (hst : s.state = .midValue)
    (hcm : s.cm = .absent) (hva : s.va = some s.last) (hc : s.committed = init ++ [(k, e0)]) :
    ∃ s', TreeAsm.runCalls pol (valueCalls ws e) s = some s' ∧ Between s' ∧
      s'.committed = init ++ [(k, e)] ∧ s'.state = .midValue := by
  have hb : s.step pol .valueBegin = .ok { s with cm := .midvalue } := by
    show s.valueBegin = _
    unfold TreeAsm.valueBegin
    rw [hcm]
  obtain ⟨s', h1, h2⟩ := writes_ok pol k init ws e0 e { s with cm := .midvalue }
    (TreeAsm.cm_inv hi _) hst rfl hva hc
  refine ⟨s', ?_, h2⟩
  show TreeAsm.runCalls pol (.valueBegin :: (ws.map TreeCall.valueWrite ++ _)) s = _
  unfold TreeAsm.runCalls
  rw [hb]
  exact h1

/-- One item never panics between items and has the effect of the specification. -/
theorem item_ok (pol : TreeAsm → Nat) (s : TreeAsm) (h : Between s) (it : TreeItem) :
    ∃ s', runItem pol s it = some s' ∧ Between s' ∧ s'.committed = addItem s.committed it := by
  obtain ⟨s0, hr, hcm0, hm0⟩ := between_ready h
  have hi := h.1
  cases it with
  | entry k ws e =>
    show ∃ s', runItem pol s (.entry k ws e) = some s' ∧ _ ∧ _ =
      if k ∈ s.committed.map Prod.fst then s.committed else s.committed ++ [(k, e)]
    unfold runItem
    dsimp only
    cases hs : s.step pol (.assembleEntry k) with
    | ok s1 =>
      obtain ⟨h1, h2, h3, h4, h5, h6, -⟩ := TreeAsm.assembleEntry_ok hi hs
      obtain ⟨s', h7, h8, h9, -⟩ := value_ok pol k s.committed ws _ e s1 h1 h4
        ((h6 s0 hr).trans hcm0) h5 h3
      exact ⟨s', h7, h8, by rw [if_neg h2]; exact h9⟩
    | err e s1 =>
      obtain ⟨h1, h2, -, h4, -, h6, h7, -⟩ := TreeAsm.assembleEntry_err hi hs
      rw [hr] at h7
      cases h7
      exact ⟨s0, rfl, ⟨h1, hm0, .inl ⟨h6, hcm0⟩⟩, by rw [if_pos h2]; exact h4⟩
    | panic =>
      exfalso
      have hs : s.assembleEntry pol k = .panic := hs
      unfold TreeAsm.assembleEntry at hs
      rw [hr] at hs
      dsimp only at hs
      cases hg : TreeAsm.get s0.map k with
      | some p => rw [hg] at hs; cases hs
      | none =>
        rw [hg] at hs
        dsimp only at hs
        obtain ⟨f1, -⟩ := TreeAsm.append_fields pol s0 (k, Row.zero.2)
        unfold TreeAsm.put at hs
        cases hm : s0.map with
        | none => exact hm0 hm
        | some mm =>
          rw [show ({ TreeAsm.append pol s0 (k, Row.zero.2) with state := MaState.midValue } :
            TreeAsm).map = some mm from f1.trans hm] at hs
          cases hs
  | keyed k ws e =>
    show ∃ s', runItem pol s (.keyed k ws e) = some s' ∧ _ ∧ _ = s.committed ++ [(k, e)]
    have hs : ∃ s1, s.step pol .assembleKey = .ok s1 := by
      show ∃ s1, s.assembleKey pol = .ok s1
      unfold TreeAsm.assembleKey
      rw [hr]
      exact ⟨_, rfl⟩
    obtain ⟨s1, hs1⟩ := hs
    obtain ⟨i1, c1, t1, k1, l1, m1, -, mp1⟩ := TreeAsm.assembleKey_ok hi hs1
    have hcm1 : s1.cm = .absent := (m1 s0 hr).trans hcm0
    have hs : ∃ s2, s1.step pol (.keyAssign k) = .ok s2 := by
      show ∃ s2, s1.keyAssign k = .ok s2
      unfold TreeAsm.keyAssign
      rw [hcm1, k1]
      exact ⟨_, rfl⟩
    obtain ⟨s2, hs2⟩ := hs
    obtain ⟨i2, c2, t2, cm2, -, mp2, l2, v2⟩ := TreeAsm.keyAssign_ok i1 hs2
    obtain ⟨v, hv⟩ := v2 k1 l1
    have hs : ∃ s3, s2.step pol .assembleValue = .ok s3 := by
      show ∃ s3, s2.assembleValue = .ok s3
      unfold TreeAsm.assembleValue
      rw [t2]
      dsimp only
      rw [if_pos cm2, hv, List.getLast?_concat]
      dsimp only
      unfold TreeAsm.put
      dsimp only
      rw [mp2, mp1]
      cases hm : s.map with
      | none => exact absurd hm h.2.1
      | some mm => exact ⟨_, rfl⟩
    obtain ⟨s3, hs3⟩ := hs
    obtain ⟨i3, c3, t3, -, q3⟩ := TreeAsm.assembleValue_ok i2 hs3
    obtain ⟨cm3, va3⟩ := q3 t2
    rw [hv, c1] at c3
    obtain ⟨s4, h4, b4, c4, -⟩ := value_ok pol k s.committed ws v e s3 i3 t3 cm3 va3 c3
    refine ⟨s4, ?_, b4, c4⟩
    show TreeAsm.runCalls pol (.assembleKey :: .keyAssign k :: .assembleValue :: valueCalls ws e) s =
      some s4
    unfold TreeAsm.runCalls
    rw [hs1]
    show TreeAsm.runCalls pol (.keyAssign k :: .assembleValue :: valueCalls ws e) s1 = some s4
    unfold TreeAsm.runCalls
    rw [hs2]
    show TreeAsm.runCalls pol (.assembleValue :: valueCalls ws e) s2 = some s4
    unfold TreeAsm.runCalls
    rw [hs3]
    exact h4

theorem items_ok (pol : TreeAsm → Nat) : ∀ (items : List TreeItem) (s : TreeAsm), Between s →
    ∃ s', items.foldlM (runItem pol) s = some s' ∧ Between s' ∧
      s'.committed = items.foldl addItem s.committed
  | [], s, h => ⟨s, rfl, h, rfl⟩
  | it :: r, s, h => by
    obtain ⟨s1, h1, h2, h3⟩ := item_ok pol s h it
    obtain ⟨s2, h4, h5, h6⟩ := items_ok pol r s1 h2
    refine ⟨s2, ?_, h5, ?_⟩
    · rw [List.foldlM_cons, h1]
      exact h4
    · rw [h6, h3]
      rfl

/-- A tree built from items, in any mix of the two ways and for every growth of
the table: building never panics, the finished tree has the rows of the
specification, and a lookup gives the value assigned last for the name. -/
theorem tree_build (pol : TreeAsm → Nat) (hint : Int) (items : List TreeItem) :
    ∃ s s', runItems pol hint items = some s ∧ s.step pol .finish = .ok s' ∧ s'.m = .value ∧
      s'.table = itemRows items ∧ ∀ k, s'.lookup k = lastFor (itemRows items) k := by
  have hb : ∃ s0, TreeAsm.fresh.step pol (.beginMap hint) = .ok s0 ∧ Between s0 ∧
      s0.committed = [] := by
    refine ⟨_, rfl, ⟨TreeAsm.beginMap_inv TreeAsm.fresh_inv rfl, (fun h => by cases h),
      .inl ⟨rfl, rfl⟩⟩, ?_⟩
    rfl
  obtain ⟨s0, h0, b0, c0⟩ := hb
  obtain ⟨s, h1, b1, c1⟩ := items_ok pol items s0 b0
  obtain ⟨s2, hr, -, -⟩ := between_ready b1
  have hf : ∃ s', s.step pol .finish = .ok s' := by
    show ∃ s', s.finish = .ok s'
    unfold TreeAsm.finish
    rw [hr]
    exact ⟨_, rfl⟩
  obtain ⟨s', hf⟩ := hf
  obtain ⟨i1, i2, i3, -, i5, i6⟩ := TreeAsm.finish_ok b1.1 hf
  have hrows : s'.committed = itemRows items := by
    rw [i2, c1, c0]
    rfl
  refine ⟨s, s', ?_, hf, i5, by rw [← i6, hrows], fun k => by rw [i1.lookup k, hrows]⟩
  unfold runItems
  rw [h0]
  exact h1

/-- A caller that is between items of a tree holding `rows`. -/
theorem items_between (pol : TreeAsm → Nat) (hint : Int) (items : List TreeItem) (s : TreeAsm)
    (h : runItems pol hint items = some s) : Between s ∧ s.committed = itemRows items := by
  have hb : ∃ s0, TreeAsm.fresh.step pol (.beginMap hint) = .ok s0 ∧ Between s0 ∧
      s0.committed = [] :=
    ⟨_, rfl, ⟨TreeAsm.beginMap_inv TreeAsm.fresh_inv rfl, (fun h => by cases h),
      .inl ⟨rfl, rfl⟩⟩, rfl⟩
  obtain ⟨s0, h0, b0, c0⟩ := hb
  obtain ⟨s1, h1, b1, c1⟩ := items_ok pol items s0 b0
  unfold runItems at h
  rw [h0] at h
  dsimp only at h
  rw [h1] at h
  cases h
  exact ⟨b1, by rw [c1, c0]; rfl⟩

/-- `AssembleEntry` refuses exactly the names the tree already has, with
`ErrRepeatedMapKey`, and a refusal leaves the rows and the lookups as they were. -/
theorem tree_refuses (pol : TreeAsm → Nat) (hint : Int) (items : List TreeItem) (s : TreeAsm)
    (h : runItems pol hint items = some s) (k : Bytes) :
    (k ∈ (itemRows items).map Prod.fst ↔
      ∃ s', s.step pol (.assembleEntry k) = .err .repeatedKey s') ∧
    (∀ e s', s.step pol (.assembleEntry k) = .err e s' →
      s'.table = s.table ∧ ∀ k', s'.lookup k' = s.lookup k') := by
  obtain ⟨hb, hc⟩ := items_between pol hint items s h
  refine ⟨⟨fun hk => ?_, fun ⟨s', hs⟩ => ?_⟩, fun e s' hs => ?_⟩
  · cases hs : s.step pol (.assembleEntry k) with
    | ok s1 => exact absurd (hc ▸ hk) (TreeAsm.assembleEntry_ok hb.1 hs).2.1
    | err e s1 =>
      obtain ⟨-, -, rfl, -⟩ := TreeAsm.assembleEntry_err hb.1 hs
      exact ⟨s1, rfl⟩
    | panic =>
      obtain ⟨s', h1, -⟩ := item_ok pol s hb (.entry k [] Row.zero.2)
      unfold runItem at h1
      dsimp only at h1
      rw [hs] at h1
      cases h1
  · rw [← hc]
    exact (TreeAsm.assembleEntry_err hb.1 hs).2.1
  · obtain ⟨h1, -, -, h4, h5, -⟩ := TreeAsm.assembleEntry_err hb.1 hs
    exact ⟨h5, fun k' => by rw [h1.lookup, hb.1.lookup, h4]⟩

/-! ## Distinct names -/

/-- C39 in full: whatever calls were made, the names are distinct. It does not
hold, see `tree_names_not_distinct`. -/
def NamesDistinct : Prop :=
  ∀ (pol : TreeAsm → Nat) (calls : List TreeCall) (s : TreeAsm),
    TreeAsm.runCalls pol calls .fresh = some s → s.state = .finished →
      (s.table.map Prod.fst).Nodup

theorem nodup_step (pol : TreeAsm → Nat) {s s' : TreeAsm} {c : TreeCall} (hc : c ≠ .assembleKey)
    (hi : s.Inv) (hst : s.state ≠ .midKey) (hn : (s.committed.map Prod.fst).Nodup)
    (hs : s.step pol c = .ok s' ∨ ∃ e, s.step pol c = .err e s') :
    s'.state ≠ .midKey ∧ (s'.committed.map Prod.fst).Nodup := by
  rcases hs with hs | ⟨e, hs⟩
  · cases c with
    | beginMap hint =>
      have hs : s.beginMap hint = .ok s' := hs
      unfold TreeAsm.beginMap at hs
      split at hs
      · have e : s'.state = s.state ∧ s'.len = 0 := by cases hs; exact ⟨rfl, rfl⟩
        have hst' : s'.state ≠ .midKey := by rw [e.1]; exact hst
        refine ⟨hst', ?_⟩
        rw [TreeAsm.committed_eq hst']
        unfold TreeAsm.table
        rw [e.2, List.take_zero]
        simp
      · cases hs
    | assembleEntry k =>
      obtain ⟨-, h2, h3, h4, -⟩ := TreeAsm.assembleEntry_ok hi hs
      refine ⟨(by rw [h4]; intro h; cases h), ?_⟩
      rw [h3, List.map_append, List.nodup_append]
      refine ⟨hn, by simp, ?_⟩
      intro a ha b hb
      simp only [List.map_cons, List.map_nil, List.mem_singleton] at hb
      rintro rfl
      exact h2 (hb ▸ ha)
    | assembleKey => exact absurd rfl hc
    | keyAssign k =>
      have hs : s.keyAssign k = .ok s' := hs
      have := (TreeAsm.keyAssign_ok hi hs).2.2.1
      unfold TreeAsm.keyAssign at hs
      cases hka : s.ka with
      | some p => exact absurd (hi.key p hka).1 hst
      | none =>
        rw [hka] at hs
        split at hs <;> cases hs
    | assembleValue =>
      obtain ⟨-, h2, h3, -, -⟩ := TreeAsm.assembleValue_ok hi hs
      refine ⟨(by rw [h3]; intro h; cases h), ?_⟩
      rw [h2, ← TreeAsm.committed_eq hst]
      exact hn
    | valueBegin => rw [(TreeAsm.valueBegin_ok hs).2]; exact ⟨hst, hn⟩
    | valueWrite e =>
      obtain ⟨-, h2, h3, -⟩ := TreeAsm.valueWrite_ok hi hs
      exact ⟨by rw [h3]; exact hst, by rw [h2]; exact hn⟩
    | valueDone => rw [TreeAsm.valueDone_ok hs]; exact ⟨hst, hn⟩
    | finish =>
      obtain ⟨-, h2, -, h4, -⟩ := TreeAsm.finish_ok hi hs
      exact ⟨(by rw [h4]; intro h; cases h), by rw [h2]; exact hn⟩
  · cases c with
    | assembleEntry k =>
      obtain ⟨-, -, -, h4, -, h6, -⟩ := TreeAsm.assembleEntry_err hi hs
      exact ⟨(by rw [h6]; intro h; cases h), by rw [h4]; exact hn⟩
    | beginMap hint =>
      have hs : s.beginMap hint = .err e s' := hs
      unfold TreeAsm.beginMap at hs
      split at hs <;> cases hs
    | assembleKey => exact absurd rfl hc
    | keyAssign k =>
      have hs : s.keyAssign k = .err e s' := hs
      unfold TreeAsm.keyAssign at hs
      split at hs
      · cases hs
      · cases hs
      · split at hs <;> cases hs
    | assembleValue =>
      have hs : s.assembleValue = .err e s' := hs
      unfold TreeAsm.assembleValue at hs
      split at hs
      · rename_i h1; exact absurd h1 hst
      · cases hs
      · cases hs
    | valueBegin =>
      have hs : s.valueBegin = .err e s' := hs
      unfold TreeAsm.valueBegin at hs
      split at hs <;> cases hs
    | valueWrite e =>
      have hs : s.valueWrite e = .err _ s' := hs
      unfold TreeAsm.valueWrite at hs
      split at hs
      · cases hs
      · cases hs
      · split at hs <;> cases hs
    | valueDone =>
      have hs : s.valueDone = .err e s' := hs
      unfold TreeAsm.valueDone at hs
      split at hs <;> cases hs
    | finish =>
      have hs : s.finish = .err e s' := hs
      unfold TreeAsm.finish at hs
      split at hs <;> cases hs

theorem nodup_run (pol : TreeAsm → Nat) : ∀ (calls : List TreeCall) (s s' : TreeAsm),
    TreeCall.assembleKey ∉ calls → s.Inv → s.state ≠ .midKey →
    (s.committed.map Prod.fst).Nodup → TreeAsm.runCalls pol calls s = some s' →
    s'.state ≠ .midKey ∧ (s'.committed.map Prod.fst).Nodup
  | [], s, s', _, _, hst, hn, h => by cases h; exact ⟨hst, hn⟩
  | c :: r, s, s', hk, hi, hst, hn, h => by
    have hc : c ≠ .assembleKey := fun h' => hk (h' ▸ List.mem_cons_self)
    have hk' : TreeCall.assembleKey ∉ r := fun h' => hk (List.mem_cons_of_mem _ h')
    unfold TreeAsm.runCalls at h
    cases hs : s.step pol c with
    | ok s1 =>
      rw [hs] at h
      obtain ⟨h1, h2⟩ := nodup_step pol hc hi hst hn (.inl hs)
      exact nodup_run pol r s1 s' hk' (TreeAsm.step_inv hi (.inl hs)) h1 h2 h
    | err e s1 =>
      rw [hs] at h
      obtain ⟨h1, h2⟩ := nodup_step pol hc hi hst hn (.inr ⟨e, hs⟩)
      exact nodup_run pol r s1 s' hk' (TreeAsm.step_inv hi (.inr ⟨e, hs⟩)) h1 h2 h
    | panic => rw [hs] at h; cases h

/-- C39 for callers that never use `AssembleKey`. Missing: the other callers, for
whom it is false. -/
theorem tree_names_distinct_partial (pol : TreeAsm → Nat) (calls : List TreeCall) (s : TreeAsm)
    (hk : TreeCall.assembleKey ∉ calls) (h : TreeAsm.runCalls pol calls .fresh = some s) :
    (s.table.map Prod.fst).Nodup := by
  obtain ⟨h1, h2⟩ := nodup_run pol calls .fresh s hk TreeAsm.fresh_inv (by intro h; cases h)
    (by show (List.map Prod.fst []).Nodup; simp) h
  rw [TreeAsm.committed_eq h1] at h2
  exact h2

/-- Two rows of the same name, given through `AssembleKey`. -/
theorem tree_names_not_distinct : ¬ NamesDistinct := by
  intro h
  obtain ⟨s, s', h1, h2, -, h4, -⟩ := tree_build (fun _ => 0) 0
    [.keyed [97] [] ⟨[], .nil⟩, .keyed [97] [] ⟨[], .nil⟩]
  have hr : TreeAsm.runCalls (fun _ => 0)
      (([.beginMap 0] ++ ([.assembleKey, .keyAssign [97], .assembleValue] ++ valueCalls [] ⟨[], .nil⟩) ++
        ([.assembleKey, .keyAssign [97], .assembleValue] ++ valueCalls [] ⟨[], .nil⟩)) ++ [.finish])
      .fresh = some s' := by
    have run_append : ∀ (a b : List TreeCall) (t : TreeAsm),
        TreeAsm.runCalls (fun _ => 0) (a ++ b) t =
          (TreeAsm.runCalls (fun _ => 0) a t).bind (TreeAsm.runCalls (fun _ => 0) b) := by
      intro a
      induction a with
      | nil => intro b t; rfl
      | cons c a ih =>
        intro b t
        show TreeAsm.runCalls (fun _ => 0) (c :: (a ++ b)) t = _
        unfold TreeAsm.runCalls
        cases t.step (fun _ => 0) c with
        | ok t1 => exact ih b t1
        | err e t1 => exact ih b t1
        | panic => rfl
    have hi : TreeAsm.runCalls (fun _ => 0)
      ([.beginMap 0] ++ ([.assembleKey, .keyAssign [97], .assembleValue] ++ valueCalls [] ⟨[], .nil⟩) ++
        ([.assembleKey, .keyAssign [97], .assembleValue] ++ valueCalls [] ⟨[], .nil⟩)) .fresh =
        some s := by
      rw [run_append, run_append]
      rw [← h1]
      rfl
    rw [run_append, hi]
    show TreeAsm.runCalls (fun _ => 0) [.finish] s = some s'
    unfold TreeAsm.runCalls
    rw [h2]
    rfl
  have hst : s'.state = .finished := by
    have hb := (items_between _ _ _ _ h1).1
    exact (TreeAsm.finish_ok hb.1 h2).2.2.2.1
  have hn := h _ _ _ hr hst
  rw [h4] at hn
  revert hn
  decide

/-- Exactly when a tree built from items has distinct names: every key given to
the key assembler was new at that point. -/
theorem tree_names_distinct_iff (items : List TreeItem) :
    ((itemRows items).map Prod.fst).Nodup ↔
      ∀ pre k ws e post, items = pre ++ .keyed k ws e :: post →
        k ∉ (itemRows pre).map Prod.fst := by
  have hsnoc : ∀ (l : List Row) (k : Bytes) (e : TreeEntry),
      ((l ++ [(k, e)]).map Prod.fst).Nodup ↔ (l.map Prod.fst).Nodup ∧ k ∉ l.map Prod.fst := by
    intro l k e
    rw [List.map_append, List.nodup_append]
    constructor
    · rintro ⟨h1, -, h2⟩
      exact ⟨h1, fun hk => h2 k hk k (by simp) rfl⟩
    · rintro ⟨h1, h2⟩
      refine ⟨h1, by simp, ?_⟩
      intro a ha b hb
      simp only [List.map_cons, List.map_nil, List.mem_singleton] at hb
      rintro rfl
      exact h2 (hb ▸ ha)
  have hrows : ∀ (a : List TreeItem) (it : TreeItem),
      itemRows (a ++ [it]) = addItem (itemRows a) it := by
    intro a it
    unfold itemRows
    rw [List.foldl_append]
    rfl
  -- by induction from the end
  have main : ∀ r : List TreeItem, ((itemRows r.reverse).map Prod.fst).Nodup ↔
      ∀ pre k ws e post, r.reverse = pre ++ .keyed k ws e :: post →
        k ∉ (itemRows pre).map Prod.fst := by
    intro r
    induction r with
    | nil =>
      constructor
      · intro _ pre k ws e post h
        simp at h
      · intro _
        show (List.map Prod.fst []).Nodup
        simp
    | cons it r ih =>
      rw [List.reverse_cons, hrows]
      have key : (∀ pre k ws e post, r.reverse ++ [it] = pre ++ .keyed k ws e :: post →
          k ∉ (itemRows pre).map Prod.fst) ↔
          (∀ pre k ws e post, r.reverse = pre ++ .keyed k ws e :: post →
            k ∉ (itemRows pre).map Prod.fst) ∧
          ∀ k ws e, it = .keyed k ws e → k ∉ (itemRows r.reverse).map Prod.fst := by
        constructor
        · intro h
          refine ⟨fun pre k ws e post hp => h pre k ws e (post ++ [it]) (by rw [hp]; simp),
            fun k ws e hp => h r.reverse k ws e [] (by rw [hp])⟩
        · rintro ⟨h1, h2⟩ pre k ws e post hp
          rcases List.eq_nil_or_concat post with rfl | ⟨post', x, rfl⟩
          · have hx := List.append_inj' hp rfl
            obtain ⟨hx1, hx2⟩ := hx
            rw [← hx1]
            exact h2 k ws e (by cases hx2; rfl)
          · have hp' : r.reverse ++ [it] = (pre ++ .keyed k ws e :: post') ++ [x] := by
              rw [hp]; simp
            exact h1 pre k ws e post' (List.append_inj' hp' rfl).1
      rw [key, ← ih]
      cases it with
      | entry k ws e =>
        show ((if k ∈ (itemRows r.reverse).map Prod.fst then itemRows r.reverse
          else itemRows r.reverse ++ [(k, e)]).map Prod.fst).Nodup ↔ _
        constructor
        · intro h
          refine ⟨?_, fun _ _ _ h' => by cases h'⟩
          split at h
          · exact h
          · exact ((hsnoc _ _ _).1 h).1
        · rintro ⟨h, -⟩
          split
          · exact h
          · rename_i hk
            exact (hsnoc _ _ _).2 ⟨h, hk⟩
      | keyed k ws e =>
        show ((itemRows r.reverse ++ [(k, e)]).map Prod.fst).Nodup ↔ _
        rw [hsnoc]
        constructor
        · rintro ⟨h1, h2⟩
          exact ⟨h1, fun k' ws' e' h' => by cases h'; exact h2⟩
        · rintro ⟨h1, h2⟩
          exact ⟨h1, h2 k ws e rfl⟩
  have := main items.reverse
  rw [List.reverse_reverse] at this
  exact this

/-! ## The decoder's trees -/

theorem lastFor_nodup {rows : List Row} (hn : (rows.map Prod.fst).Nodup) (k : Bytes) :
    lastFor rows k = (rows.find? (fun r => r.1 = k)).map (·.2) := by
  induction rows with
  | nil => rfl
  | cons r rows ih =>
    rw [List.map_cons, List.nodup_cons] at hn
    rw [List.find?_cons]
    unfold lastFor
    rw [List.reverse_cons, List.find?_append]
    by_cases hk : r.1 = k
    · have hnone : lastFor rows k = none := lastFor_none.2 (hk ▸ hn.1)
      unfold lastFor at hnone
      rw [Option.map_eq_none_iff] at hnone
      rw [hnone]
      simp [hk]
    · have := ih hn.2
      unfold lastFor at this
      simp [hk, ← this]

theorem itemRows_entries : ∀ (rows done : List Row),
    ((done ++ rows).map Prod.fst).Nodup →
    (rows.map fun r => TreeItem.entry r.1 [] r.2).foldl addItem done = done ++ rows
  | [], done, _ => by simp
  | r :: rows, done, hn => by
    have hr : r.1 ∉ done.map Prod.fst := by
      rw [List.map_append, List.nodup_append] at hn
      intro h
      exact hn.2.2 r.1 h r.1 (by simp) rfl
    have := itemRows_entries rows (done ++ [r]) (by simpa using hn)
    rw [List.map_cons, List.foldl_cons]
    show List.foldl addItem (if r.1 ∈ done.map Prod.fst then done else done ++ [(r.1, r.2)]) _ = _
    rw [if_neg hr]
    simpa using this

/-- The trees the decoder builds, in the model without pointers, are the trees
that the assembler builds: the same rows and the same lookups, however the table
grew. -/
theorem tree_add_refines (pol : TreeAsm → Nat) (hint : Int) (rows : List Row) (t : Tree)
    (h : rows.foldlM (fun t r => treeAdd t r.1 r.2) { m := [], t := [] } = Res.ok t) :
    ∃ s s', runItems pol hint (rows.map fun r => .entry r.1 [] r.2) = some s ∧
      s.step pol .finish = .ok s' ∧ s'.table = t.t ∧ ∀ k, s'.lookup k = mapGet t.m k := by
  have main : ∀ (rows : List Row) (t0 t : Tree), TreeInv t0 →
      rows.foldlM (fun t r => treeAdd t r.1 r.2) t0 = Res.ok t → TreeInv t ∧ t.t = t0.t ++ rows := by
    intro rows
    induction rows with
    | nil =>
      intro t0 t hi h
      cases h
      exact ⟨hi, by simp⟩
    | cons r rows ih =>
      intro t0 t hi h
      rw [List.foldlM_cons] at h
      obtain ⟨t1, h1, h⟩ := Res.bind_eq_ok.1 h
      obtain ⟨h2, h3⟩ := treeAdd_ok _ _ _ _ h1
      subst h3
      obtain ⟨h4, h5⟩ := ih _ t (treeInv_add t0 r.1 r.2 hi h2) h
      exact ⟨h4, by rw [h5]; simp⟩
  obtain ⟨hi, ht⟩ := main rows _ t treeInv_empty h
  have ht : t.t = rows := by simpa using ht
  have hn : (rows.map Prod.fst).Nodup := by
    have := hi.nodup
    rw [ht] at this
    exact this
  have hrows : itemRows (rows.map fun r => TreeItem.entry r.1 [] r.2) = rows := by
    have := itemRows_entries rows [] (by simpa using hn)
    unfold itemRows
    simpa using this
  obtain ⟨s, s', h1, h2, -, h4, h5⟩ := tree_build pol hint (rows.map fun r => .entry r.1 [] r.2)
  refine ⟨s, s', h1, h2, by rw [h4, hrows, ht], fun k => ?_⟩
  rw [h5 k, hrows, hi.lookup k, ht]
  exact lastFor_nodup hn k

/-! ## Assigning a map that is not a `*_Tree` -/

/-- `AssignNode` on a fresh tree builder with a non-empty map of another
implementation, or with the representation of a non-empty tree: a nil map
dereference panic. `AssignNode` does not call `BeginMap`. -/
theorem tree_assign_map_panics (pol : TreeAsm → Nat) (n : Node) (es : List (Bytes × Node))
    (hn : n.mapIterator = some es) (hne : es ≠ []) :
    TreeAsm.fresh.assignNode pol n = .panic := by
  have hnull : n.isNull = false := by
    cases n <;> first | rfl | (cases hn; done)
  unfold TreeAsm.assignNode
  rw [hnull, hn]
  obtain ⟨⟨k, v⟩, r, rfl⟩ := List.exists_cons_of_ne_nil hne
  rfl

/-- With an empty map it gives the empty tree. -/
theorem tree_assign_empty (pol : TreeAsm → Nat) (n : Node) (hn : n.mapIterator = some []) :
    ∃ s, TreeAsm.fresh.assignNode pol n = .ok s ∧ s.m = .value ∧ s.table = [] ∧
      ∀ k, s.lookup k = none := by
  have hnull : n.isNull = false := by
    cases n <;> first | rfl | (cases hn; done)
  unfold TreeAsm.assignNode
  rw [hnull, hn]
  refine ⟨_, rfl, rfl, rfl, fun k => ?_⟩
  show (TreeAsm.get none k).bind _ = none
  unfold TreeAsm.get
  rfl

/-! ## Concrete cases -/

/-- Three entries and a refused one, in a table that is reallocated at every
append: the pointers of the first two lead into abandoned arrays. -/
example :
    let a : TreeEntry := ⟨b!"100644", .nil⟩
    let b : TreeEntry := ⟨b!"40000", .nil⟩
    let items : List TreeItem := [.entry b!"x" [b] a, .keyed b!"y" [] b, .entry b!"x" [] b,
      .keyed b!"x" [a] b]
    itemRows items = [(b!"x", a), (b!"y", b), (b!"x", b)] ∧
    (runItems (fun _ => 0) 0 items).map (·.heap.length) = some 5 ∧
    (runItems (fun _ => 0) 0 items).map (·.map) =
      some (some [(b!"x", ⟨4, 2⟩), (b!"y", ⟨3, 1⟩), (b!"x", ⟨2, 0⟩)]) ∧
    (runItems (fun _ => 0) 0 items).map (·.lookup b!"x") = some (some b) ∧
    (runItems (fun _ => 0) 0 items).map (·.lookup b!"y") = some (some b) := by
  refine ⟨by decide +kernel, by decide +kernel, by decide +kernel, by decide +kernel,
    by decide +kernel⟩

example : (Node.map [(b!"a", .null)]).mapIterator = some [(b!"a", .null)] := rfl

end Verif.Props
