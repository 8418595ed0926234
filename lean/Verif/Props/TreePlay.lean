import Verif.Spec.TreePlay
import Verif.Props.TreeFeed
import Verif.Props.Calls

/-!
# A tree builder driven call by call: C77
-/

namespace Verif.Props

open Verif Spec Calls

/-- What the calls so far, which returned no error, have made of the tree builder. -/
inductive TreePart : TreeFrame → List (Nat × Call) → Prop where
  | idle : TreePart .fresh []
  | rest {a : TreeFrame} {rows : List Row} {es : List (Nat × Call)} : Holds rows a → a.s.state = .initial →
      a.child = none → a.s.m = .midvalue → TreeEntries rows es → TreePart a ((0, .beginMap) :: es)
  | key {a : TreeFrame} {rows : List Row} {es : List (Nat × Call)} : a.s.Inv → a.s.map ≠ none → a.s.state = .midKey →
      a.s.cm = .absent → a.s.ka = some a.s.last → 0 < a.s.len → a.s.committed = rows → a.child = none →
      a.s.m = .midvalue → TreeEntries rows es → TreePart a ((0, .beginMap) :: (es ++ [(0, .assembleKey)]))
  | keyed {a : TreeFrame} {rows : List Row} {es : List (Nat × Call)} {k : Bytes} {v : TreeEntry} : a.s.Inv →
      a.s.map ≠ none → a.s.state = .midKey → a.s.cm = .value → a.s.table = rows ++ [(k, v)] → a.child = none →
      a.s.m = .midvalue → TreeEntries rows es →
      TreePart a ((0, .beginMap) :: (es ++ [(0, .assembleKey), (0, .keyAssign k)]))
  | mid {a : TreeFrame} {rows : List Row} {es nm c : List (Nat × Call)} {k : Bytes} {ch : Frame} : Mid k rows a ch →
      a.s.m = .midvalue → TreeEntries rows es → TreeNames rows k nm → Partial .treeEntry ch c →
      (∀ d u x, (d, Call.assignSelf u x) ∈ c → Complete u x) →
      TreePart a ((0, .beginMap) :: (es ++ nm ++ deeper c))
  | done {a : TreeFrame} {rows : List Row} {cs : List (Nat × Call)} : a.s.Inv → a.s.state = .finished →
      a.s.m = .value → a.s.committed = rows → a.child = none → MakesTree rows cs → TreePart a cs

theorem complete_entry {v : Val} (h : Complete .treeEntry v) : ∃ e, v = treeEntryVal e := by
  cases h with
  | text h b => cases h
  | link h l => cases h
  | list h vs _ => cases h
  | struct h l hl ha hc =>
    cases h
    obtain ⟨x, hx⟩ := ha 0 _ rfl rfl
    obtain ⟨y, hy⟩ := ha 1 _ rfl rfl
    match l, hl with
    | [p, q], _ =>
      cases hx
      cases hy
      have h1 := hc 0 _ _ rfl rfl
      have h2 := hc 1 _ _ rfl rfl
      cases h1 with
      | text _ b =>
        cases h2 with
        | link _ l => exact ⟨⟨b, l⟩, rfl⟩
        | text h => cases h
        | list h => cases h
        | struct h => cases h
      | link h => cases h
      | list h => cases h
      | struct h => cases h

/-- Where the state machine lets a new entry begin, the calls spell out the rows. -/
theorem part_ready {a : TreeFrame} {cs : List (Nat × Call)} (h : TreePart a cs) (hb : a.s.map.isSome = true)
    {s0 : TreeAsm} (hr : a.s.ready = some s0) :
    ∃ rows es, Holds rows a ∧ a.s.m = .midvalue ∧ TreeEntries rows es ∧ cs = (0, .beginMap) :: es := by
  cases h with
  | idle => cases hb
  | rest h1 h2 h3 h4 h5 => exact ⟨_, _, h1, h4, h5, rfl⟩
  | key h1 h2 h3 => unfold TreeAsm.ready at hr; rw [h3] at hr; cases hr
  | keyed h1 h2 h3 => unfold TreeAsm.ready at hr; rw [h3] at hr; cases hr
  | done h1 h2 => unfold TreeAsm.ready at hr; rw [h2] at hr; cases hr
  | @mid _ rows es nm c k ch h1 h2 h3 h4 h5 h6 =>
    unfold TreeAsm.ready at hr
    rw [h1.state] at hr
    unfold TreeAsm.tidyValue at hr
    dsimp only at hr
    split at hr
    · rename_i hv
      obtain ⟨e, he, hw⟩ := h1.row
      have hm : ch.m = .value := h1.mark.symm.trans hv
      have hmk := partial_value h5 hm
      obtain ⟨e', he'⟩ := complete_entry (makes_complete hmk h6)
      have := hw hm
      rw [he', entryOf_val] at this
      subst this
      rw [he'] at hmk
      exact ⟨_, _, ⟨⟨h1.inv, map_of_committed h1.inv he, .inr ⟨h1.state, hv⟩⟩, he, h1.m⟩, h2,
        .snoc h3 h4 hmk, by simp⟩
    · cases hr

theorem part_map {a : TreeFrame} {cs : List (Nat × Call)} (h : TreePart a cs) : a.s.Inv := by
  cases h with
  | idle => exact TreeAsm.fresh_inv
  | rest h1 => exact h1.between.1
  | key h1 => exact h1
  | keyed h1 => exact h1
  | done h1 => exact h1
  | mid h1 => exact h1.inv

theorem part_child {a : TreeFrame} {cs : List (Nat × Call)} {ch : Frame} (h : TreePart a cs) (hc : a.child = some ch) :
    ∃ rows es nm c k, Mid k rows a ch ∧ a.s.m = .midvalue ∧ TreeEntries rows es ∧ TreeNames rows k nm ∧
      Partial .treeEntry ch c ∧ (∀ d u x, (d, Call.assignSelf u x) ∈ c → Complete u x) ∧
      cs = (0, .beginMap) :: (es ++ nm ++ deeper c) := by
  cases h with
  | idle => cases hc
  | rest h1 h2 h3 => rw [h3] at hc; cases hc
  | key h1 h2 h3 h4 h5 h6 h7 h8 => rw [h8] at hc; cases hc
  | keyed h1 h2 h3 h4 h5 h6 => rw [h6] at hc; cases hc
  | done h1 h2 h3 h4 h5 => rw [h5] at hc; cases hc
  | mid h1 h2 h3 h4 h5 h6 =>
    have := h1.child
    rw [hc] at this
    cases this
    exact ⟨_, _, _, _, _, h1, h2, h3, h4, h5, h6, rfl⟩

theorem sync_m (a : TreeFrame) (ch : Frame) : (a.sync ch).s.m = a.s.m := by
  unfold TreeFrame.sync
  split
  · split <;> rfl
  · rfl

theorem ret_ok {c : Option Frame} {r : Ret TreeAsm} {b : TreeFrame} (h : TreeFrame.ret c r = .ok b) :
    ∃ s, r = .ok s ∧ b = ⟨s, c⟩ := by
  cases r with
  | ok s => cases h; exact ⟨s, rfl, rfl⟩
  | err e s => cases h
  | panic => cases h

theorem ret_err {c : Option Frame} {r : Ret TreeAsm} {e : Err} {b : TreeFrame} (h : TreeFrame.ret c r = .err e b) :
    ∃ s, r = .err e s ∧ b = ⟨s, none⟩ := by
  cases r with
  | ok s => cases h
  | err e' s => cases h; exact ⟨s, rfl, rfl⟩
  | panic => cases h

theorem entry_state {pol : TreeAsm → Nat} {s s' : TreeAsm} {k : Bytes} (h : s.assembleEntry pol k = .ok s') :
    ∃ s0, s.ready = some s0 := by
  unfold TreeAsm.assembleEntry at h
  cases hr : s.ready with
  | none => rw [hr] at h; cases h
  | some s0 => exact ⟨s0, rfl⟩

/-- A call on the builder itself. -/
theorem part_call {pol : TreeAsm → Nat} {hint : Int} {a : TreeFrame} {cs : List (Nat × Call)} (h : TreePart a cs)
    (c : Call) :
    (∀ b, a.call pol hint c = .ok b → TreePart b (cs ++ [(0, c)])) ∧
    (∀ e b, a.call pol hint c = .err e b → TreePart b cs) := by
  cases c with
  | beginMap =>
    constructor
    · intro b hc
      obtain ⟨s, hs, rfl⟩ := ret_ok hc
      have hm : a.s.m = .absent := by
        unfold TreeAsm.beginMap at hs
        split at hs
        · assumption
        · cases hs
      cases h with
      | idle =>
        cases hs
        exact .rest ⟨⟨TreeAsm.beginMap_inv TreeAsm.fresh_inv rfl, (fun h => by cases h), .inl ⟨rfl, rfl⟩⟩, rfl,
          (fun h => by cases h)⟩ rfl rfl rfl .nil
      | rest h1 h2 h3 h4 => rw [h4] at hm; cases hm
      | key h1 h2 h3 h4 h5 h6 h7 h8 h9 => rw [h9] at hm; cases hm
      | keyed h1 h2 h3 h4 h5 h6 h7 => rw [h7] at hm; cases hm
      | done h1 h2 h3 => rw [h3] at hm; cases hm
      | mid h1 h2 => rw [h2] at hm; cases hm
    · intro e b hc
      obtain ⟨s, hs, -⟩ := ret_err hc
      unfold TreeAsm.beginMap at hs
      split at hs <;> cases hs
  | beginList n => exact ⟨(fun b hc => by cases hc), (fun e b hc => by cases hc; exact h)⟩
  | assignNull =>
    simp only [TreeFrame.call]
    split
    · exact ⟨(fun b hc => by cases hc), (fun e b hc => by cases hc; exact h)⟩
    · exact ⟨(fun b hc => by cases hc), (fun e b hc => by cases hc)⟩
  | assignOther => exact ⟨(fun b hc => by cases hc), (fun e b hc => by cases hc; exact h)⟩
  | assignString x => exact ⟨(fun b hc => by cases hc), (fun e b hc => by cases hc; exact h)⟩
  | assignLink l => exact ⟨(fun b hc => by cases hc), (fun e b hc => by cases hc; exact h)⟩
  | assignSelf t v => exact ⟨(fun b hc => by cases hc), (fun e b hc => by cases hc)⟩
  | assembleEntry k =>
    simp only [TreeFrame.call]
    split
    · rename_i hb
      constructor
      · intro b hc
        obtain ⟨s, hs, rfl⟩ := ret_ok hc
        obtain ⟨s0, hr⟩ := entry_state hs
        obtain ⟨rows, es, h1, h2, h3, rfl⟩ := part_ready h hb hr
        obtain ⟨s1, hr1, hcm, -⟩ := between_ready h1.between
        obtain ⟨i1, i2, i3, i4, i5, i6, i7⟩ := TreeAsm.assembleEntry_ok h1.between.1 hs
        rw [h1.rows] at i2 i3
        have := TreePart.mid (a := ⟨s, some (fresh .treeEntry)⟩)
          ⟨i1, i4, i5, rfl, (i6 s1 hr1).trans hcm, ⟨_, i3, nofun⟩, i7 ▸ h1.m⟩ (i7.trans h2) h3
          (.entry i2) (.idle .treeEntry) (fun d u x hx => by simp at hx)
        simpa [deeper] using this
      · intro e b hc
        obtain ⟨s, hs, rfl⟩ := ret_err hc
        obtain ⟨i1, i2, i3, i4, i5, i6, i7, i8⟩ := TreeAsm.assembleEntry_err (part_map h) hs
        obtain ⟨rows, es, h1, h2, h3, rfl⟩ := part_ready h hb i7
        obtain ⟨s1, hr1, hcm, hmp⟩ := between_ready h1.between
        rw [i7] at hr1
        cases hr1
        exact .rest ⟨⟨i1, hmp, .inl ⟨i6, hcm⟩⟩, i4.trans h1.rows, by
          show s.m ≠ _
          rw [i8]; exact h1.m⟩ i6 rfl (i8.trans h2) h3
    · exact ⟨(fun b hc => by cases hc), (fun e b hc => by cases hc)⟩
  | assembleKey =>
    simp only [TreeFrame.call]
    split
    · rename_i hb
      constructor
      · intro b hc
        obtain ⟨s, hs, rfl⟩ := ret_ok hc
        have hr : ∃ s0, a.s.ready = some s0 := by
          unfold TreeAsm.assembleKey at hs
          cases hr : a.s.ready with
          | none => rw [hr] at hs; cases hs
          | some s0 => exact ⟨s0, rfl⟩
        obtain ⟨s0, hr⟩ := hr
        obtain ⟨rows, es, h1, h2, h3, rfl⟩ := part_ready h hb hr
        obtain ⟨s1, hr1, hcm, -⟩ := between_ready h1.between
        obtain ⟨i1, i2, i3, i4, i5, i6, i7, i8⟩ := TreeAsm.assembleKey_ok h1.between.1 hs
        exact .key i1 (by show s.map ≠ none; rw [i8]; exact h1.between.2.1) i3 ((i6 s1 hr1).trans hcm) i4 i5
          (i2.trans h1.rows) rfl (i7.trans h2) h3
      · intro e b hc
        obtain ⟨s, hs, rfl⟩ := ret_err hc
        unfold TreeAsm.assembleKey at hs
        split at hs <;> cases hs
    · exact ⟨(fun b hc => by cases hc), (fun e b hc => by cases hc)⟩
  | keyAssign k =>
    simp only [TreeFrame.call]
    split
    · rename_i hb
      constructor
      · intro b hc
        obtain ⟨s, hs, rfl⟩ := ret_ok hc
        obtain ⟨i1, i2, i3, i4, i5, i6, i7, i8⟩ := TreeAsm.keyAssign_ok (part_map h) hs
        have hka : ∃ p, a.s.ka = some p ∧ a.s.cm ≠ .value := by
          unfold TreeAsm.keyAssign at hs
          cases hcm : a.s.cm <;> rw [hcm] at hs <;> dsimp only at hs <;> try (cases hs; done)
          all_goals
            cases hka : a.s.ka with
            | none => rw [hka] at hs; cases hs
            | some p => exact ⟨p, rfl, nofun⟩
        obtain ⟨p, hp, hv⟩ := hka
        have hst := ((part_map h).key p hp).1
        cases h with
        | idle => cases hst
        | rest h1 h2 => rw [h2] at hst; cases hst
        | key h1 h2 h3 h4 h5 h6 h7 h8 h9 h10 =>
          obtain ⟨v, hv⟩ := i8 h5 h6
          rw [h7] at hv
          have := TreePart.keyed (a := ⟨s, none⟩) i1 (by show s.map ≠ none; rw [i6]; exact h2) i3 i4 hv rfl
            (i5.trans h9) h10
          simpa using this
        | keyed h1 h2 h3 h4 => exact absurd h4 hv
        | done h1 h2 => rw [h2] at hst; cases hst
        | mid h1 h2 => rw [h1.state] at hst; cases hst
      · intro e b hc
        obtain ⟨s, hs, rfl⟩ := ret_err hc
        unfold TreeAsm.keyAssign at hs
        cases hcm : a.s.cm <;> rw [hcm] at hs <;> dsimp only at hs <;> try (cases hs; done)
        all_goals split at hs <;> cases hs
    · exact ⟨(fun b hc => by cases hc), (fun e b hc => by cases hc)⟩
  | keyAssignOther =>
    simp only [TreeFrame.call]
    split
    · exact ⟨(fun b hc => by cases hc), (fun e b hc => by cases hc; exact h)⟩
    · exact ⟨(fun b hc => by cases hc), (fun e b hc => by cases hc)⟩
  | assembleValue =>
    simp only [TreeFrame.call]
    split
    · rename_i hb
      constructor
      · intro b hc
        obtain ⟨s, hs, rfl⟩ := ret_ok hc
        obtain ⟨i1, i2, i3, i4, i5⟩ := TreeAsm.assembleValue_ok (part_map h) hs
        cases h with
        | idle => cases hb
        | rest h1 h2 => unfold TreeAsm.assembleValue at hs; rw [h2] at hs; cases hs
        | key h1 h2 h3 h4 => unfold TreeAsm.assembleValue at hs; rw [h3, h4] at hs; cases hs
        | keyed h1 h2 h3 h4 h5 h6 h7 h8 =>
          obtain ⟨i6, i7⟩ := i5 h3
          rw [h5] at i2
          have := TreePart.mid (a := ⟨s, some (fresh .treeEntry)⟩)
            ⟨i1, i3, i7, rfl, i6, ⟨_, i2, nofun⟩, by show s.m ≠ _; rw [i4, h7]; nofun⟩ (i4.trans h7) h8
            .keyValue (.idle .treeEntry) (fun d u x hx => by simp at hx)
          simpa [deeper] using this
        | done h1 h2 => unfold TreeAsm.assembleValue at hs; rw [h2] at hs; cases hs
        | mid h1 h2 => unfold TreeAsm.assembleValue at hs; rw [h1.state] at hs; cases hs
      · intro e b hc
        obtain ⟨s, hs, rfl⟩ := ret_err hc
        unfold TreeAsm.assembleValue at hs
        split at hs
        · split at hs
          · split at hs
            · cases hs
            · unfold TreeAsm.put at hs
              cases hm : a.s.map with
              | none => rw [hm] at hs; cases hs
              | some mm => rw [hm] at hs; cases hs
          · cases hs
        · cases hs
        · cases hs
    · exact ⟨(fun b hc => by cases hc), (fun e b hc => by cases hc)⟩
  | finish =>
    simp only [TreeFrame.call]
    split
    · rename_i hb
      constructor
      · intro b hc
        obtain ⟨s, hs, rfl⟩ := ret_ok hc
        have hr : ∃ s0, a.s.ready = some s0 := by
          unfold TreeAsm.finish at hs
          cases hr : a.s.ready with
          | none => rw [hr] at hs; cases hs
          | some s0 => exact ⟨s0, rfl⟩
        obtain ⟨s0, hr⟩ := hr
        obtain ⟨rows, es, h1, h2, h3, rfl⟩ := part_ready h hb hr
        obtain ⟨i1, i2, i3, i4, i5, i6⟩ := TreeAsm.finish_ok h1.between.1 hs
        exact .done i1 i4 i5 (i2.trans h1.rows) rfl ⟨es, h3, rfl⟩
      · intro e b hc
        obtain ⟨s, hs, rfl⟩ := ret_err hc
        unfold TreeAsm.finish at hs
        split at hs <;> cases hs
    · exact ⟨(fun b hc => by cases hc), (fun e b hc => by cases hc)⟩

theorem part_callAt {pol : TreeAsm → Nat} {hint : Int} {a : TreeFrame} {cs : List (Nat × Call)} (h : TreePart a cs)
    (d : Nat) (c : Call) (hw : ∀ u x, c = .assignSelf u x → Complete u x) :
    (∀ b, a.callAt pol hint d c = .ok b → TreePart b (cs ++ [(d, c)])) ∧
    (∀ e b, a.callAt pol hint d c = .err e b → TreePart b cs) := by
  cases d with
  | zero => exact part_call h c
  | succ d =>
    simp only [TreeFrame.callAt]
    cases hch : a.child with
    | none => exact ⟨(fun b hc => by cases hc), (fun e b hc => by cases hc)⟩
    | some ch =>
      dsimp only
      obtain ⟨rows, es, nm, c', k, h1, h2, h3, h4, h5, h6, rfl⟩ := part_child h hch
      have hi := callAt_inv h5 d c
      cases hcc : ch.callAt d c with
      | ok ch' =>
        refine ⟨fun b hc => ?_, (fun e b hc => by cases hc)⟩
        cases hc
        have := TreePart.mid (mid_sync (ch' := ch') h1) ((sync_m a ch').trans h2) h3 h4 (hi.1 _ hcc)
          (fun d' u x hx => by
            rcases List.mem_append.1 hx with hx | hx
            · exact h6 d' u x hx
            · simp only [List.mem_singleton, Prod.mk.injEq] at hx
              exact hw u x hx.2.symm)
        simpa [deeper] using this
      | err e ch' =>
        refine ⟨(fun b hc => by cases hc), fun e' b hc => ?_⟩
        cases hc
        exact TreePart.mid (mid_sync (ch' := ch') h1) ((sync_m a ch').trans h2) h3 h4 (hi.2 _ _ hcc) h6
      | panic => exact ⟨(fun b hc => by cases hc), (fun e b hc => by cases hc)⟩
      | noHandle => exact ⟨(fun b hc => by cases hc), (fun e b hc => by cases hc)⟩

theorem playTree_inv {pol : TreeAsm → Nat} {hint : Int} {a b : TreeFrame} {pre cs good : List (Nat × Call)}
    (h : TreePart a pre) (hw : ∀ d u x, (d, Call.assignSelf u x) ∈ cs → Complete u x)
    (hp : playTree pol hint a cs = some (b, good)) : TreePart b (pre ++ good) := by
  induction cs generalizing a pre good with
  | nil => cases hp; simpa using h
  | cons x r ih =>
    obtain ⟨d, c⟩ := x
    have hw1 : ∀ u x, c = .assignSelf u x → Complete u x := fun u x hc => hw d u x (by rw [hc]; simp)
    have hw2 : ∀ d u x, (d, Call.assignSelf u x) ∈ r → Complete u x := fun d u x hx => hw d u x (by simp [hx])
    simp only [playTree] at hp
    split at hp
    · rename_i a1 hc
      cases hr : playTree pol hint a1 r with
      | none => rw [hr] at hp; cases hp
      | some q =>
        obtain ⟨a2, g⟩ := q
        rw [hr] at hp
        cases hp
        have := ih ((part_callAt h d c hw1).1 _ hc) hw2 hr
        simpa using this
    · rename_i hc
      exact ih ((part_callAt h d c hw1).2 _ _ hc) hw2 hp
    · cases hp
    · cases hp

/-- Whatever a client does with a tree builder, if no call panics and `Build` returns
a tree, then the calls that returned no error spell out its rows; a name is looked up
in the last row that has it. -/
theorem tree_sound (pol : TreeAsm → Nat) (hint : Int) {cs good : List (Nat × Call)} {a : TreeFrame} {t : Tree}
    (hw : ∀ d u x, (d, Call.assignSelf u x) ∈ cs → Complete u x)
    (hp : playTree pol hint .fresh cs = some (a, good)) (hb : a.build = .ok t) :
    MakesTree t.t good ∧ ∀ k, treeLookup t k = (lastFor t.t k).elim (.err .notExists) .ok := by
  have h := playTree_inv .idle hw hp
  rw [List.nil_append] at h
  unfold TreeFrame.build at hb
  split at hb
  · rename_i hm
    cases hb
    cases h with
    | idle => cases hm
    | rest h1 h2 h3 h4 => rw [h4] at hm; cases hm
    | key h1 h2 h3 h4 h5 h6 h7 h8 h9 => rw [h9] at hm; cases hm
    | keyed h1 h2 h3 h4 h5 h6 h7 => rw [h7] at hm; cases hm
    | mid h1 h2 => rw [h2] at hm; cases hm
    | done h1 h2 h3 h4 h5 h6 =>
      have hr : a.s.built.t = a.s.committed := by
        rw [TreeAsm.committed_eq (by rw [h2]; nofun)]; rfl
      refine ⟨?_, fun k => treeLookup_built ?_⟩
      · rw [hr, h4]; exact h6
      · rw [mapGet_built h1, h1.lookup, hr]
  · cases hb

theorem playTree_append (pol : TreeAsm → Nat) (hint : Int) {a b c : TreeFrame} {xs ys : List (Nat × Call)}
    (h1 : playTree pol hint a xs = some (b, xs)) (h2 : playTree pol hint b ys = some (c, ys)) :
    playTree pol hint a (xs ++ ys) = some (c, xs ++ ys) := by
  have key : ∀ (xs : List (Nat × Call)) (a : TreeFrame) (g : List (Nat × Call)), playTree pol hint a xs = some (b, g) →
      playTree pol hint a (xs ++ ys) = some (c, g ++ ys) := by
    intro xs
    induction xs with
    | nil => intro a g h; cases h; exact h2
    | cons x r ih =>
      intro a g h
      obtain ⟨d, c'⟩ := x
      simp only [List.cons_append, playTree] at h ⊢
      split at h
      · rename_i a1 hc
        cases hr : playTree pol hint a1 r with
        | none => rw [hr] at h; cases h
        | some q =>
          obtain ⟨a2, g'⟩ := q
          rw [hr] at h
          cases h
          rw [ih a1 g' hr]; rfl
      · exact ih _ _ h
      · cases h
      · cases h
  exact key xs a xs h1

theorem playTree_deeper (pol : TreeAsm → Nat) (hint : Int) {k : Bytes} {rows : List Row} (cs : List (Nat × Call)) :
    ∀ (a : TreeFrame) (ch ch' : Frame) (g : List (Nat × Call)), Mid k rows a ch → play ch cs = some (ch', g) →
      ∃ a', playTree pol hint a (deeper cs) = some (a', deeper g) ∧ Mid k rows a' ch' := by
  induction cs with
  | nil => intro a ch ch' g h hp; cases hp; exact ⟨a, rfl, h⟩
  | cons x r ih =>
    intro a ch ch' g h hp
    obtain ⟨d, c⟩ := x
    simp only [play] at hp
    simp only [deeper, List.map_cons, playTree, TreeFrame.callAt, h.child]
    cases hc : ch.callAt d c with
    | ok ch1 =>
      rw [hc] at hp
      dsimp only at hp ⊢
      cases hr : play ch1 r with
      | none => rw [hr] at hp; cases hp
      | some q =>
        rw [hr] at hp
        cases hp
        obtain ⟨a', h1, h2⟩ := ih _ _ _ _ (mid_sync (ch' := ch1) h) hr
        refine ⟨a', ?_, h2⟩
        rw [show List.map (fun p : Nat × Call => (p.1 + 1, p.2)) r = deeper r from rfl, h1]
        rfl
    | err e ch1 =>
      rw [hc] at hp
      exact ih _ _ _ _ (mid_sync (ch' := ch1) h) hp
    | panic => rw [hc] at hp; cases hp
    | noHandle => rw [hc] at hp; cases hp

theorem begin_names (pol : TreeAsm → Nat) (hint : Int) {rows : List Row} {a : TreeFrame} (h : Holds rows a) {k : Bytes}
    {nm : List (Nat × Call)} (hn : TreeNames rows k nm) :
    ∃ a', playTree pol hint a nm = some (a', nm) ∧ Mid k rows a' (fresh .treeEntry) := by
  cases hn with
  | entry hk =>
    rcases begin_entry pol hint h k with ⟨hk', -⟩ | ⟨-, a', ha, hm⟩
    · exact absurd hk' hk
    · exact ⟨a', by simp only [playTree, ha, Option.map_some], hm⟩
  | keyValue =>
    obtain ⟨a', ha, hm⟩ := begin_keyed pol hint h k []
    refine ⟨a', ?_, hm⟩
    simp only [driveTree] at ha
    simp only [playTree]
    split at ha
    · rename_i a1 h1
      rw [h1]
      dsimp only
      split at ha
      · rename_i a2 h2
        rw [h2]
        dsimp only
        split at ha
        · rename_i a3 h3
          rw [h3]
          cases ha
          rfl
        all_goals cases ha
      all_goals cases ha
    all_goals cases ha

theorem playTree_entries (pol : TreeAsm → Nat) (hint : Int) {rows : List Row} {es : List (Nat × Call)}
    (h : TreeEntries rows es) {a : TreeFrame} (h0 : Holds [] a) :
    ∃ a', playTree pol hint a es = some (a', es) ∧ Holds rows a' := by
  induction h with
  | nil => exact ⟨a, rfl, h0⟩
  | @snoc rows cs nm c k e _ hn hm ih =>
    obtain ⟨a1, h1, h2⟩ := ih
    obtain ⟨a2, h3, h4⟩ := begin_names pol hint h2 hn
    obtain ⟨ch, h5, h6, h7⟩ := makes_play hm
    obtain ⟨a3, h8, h9⟩ := playTree_deeper pol hint c a2 _ _ _ h4 h5
    refine ⟨a3, playTree_append pol hint (playTree_append pol hint h1 h3) h8, ?_⟩
    obtain ⟨e', he, hw⟩ := h9.row
    have := hw h6
    rw [h7, entryOf_val] at this
    subst this
    exact ⟨⟨h9.inv, map_of_committed h9.inv he, .inr ⟨h9.state, h9.mark.trans h6⟩⟩, he, h9.m⟩

/-- Calls that spell out a tree all succeed, and build it. -/
theorem tree_complete (pol : TreeAsm → Nat) (hint : Int) {rows : List Row} {cs : List (Nat × Call)}
    (h : MakesTree rows cs) :
    ∃ a t, playTree pol hint .fresh cs = some (a, cs) ∧ a.build = .ok t ∧ t.t = rows := by
  obtain ⟨es, he, rfl⟩ := h
  obtain ⟨a0, ha0, h0⟩ : ∃ a0, TreeFrame.fresh.callAt pol hint 0 .beginMap = .ok a0 ∧ Holds [] a0 :=
    ⟨_, rfl, ⟨TreeAsm.beginMap_inv TreeAsm.fresh_inv rfl, (fun h => by cases h), .inl ⟨rfl, rfl⟩⟩, rfl,
      (fun h => by cases h)⟩
  obtain ⟨a, h1, h3⟩ := playTree_entries pol hint he h0
  obtain ⟨s2, hr, -, -⟩ := between_ready h3.between
  have hf : ∃ s', a.s.finish = .ok s' := by
    unfold TreeAsm.finish
    rw [hr]
    exact ⟨_, rfl⟩
  obtain ⟨s', hf⟩ := hf
  obtain ⟨i1, i2, i3, -, i5, i6⟩ := TreeAsm.finish_ok h3.between.1 hf
  have hlast : playTree pol hint a [(0, .finish)] = some (⟨s', none⟩, [(0, .finish)]) := by
    simp only [playTree, TreeFrame.callAt, TreeFrame.call, h3.isSome, if_true, hf, TreeFrame.ret, Option.map_some]
  refine ⟨⟨s', none⟩, s'.built, ?_, ?_, ?_⟩
  · simp only [List.cons_append, playTree, ha0]
    rw [playTree_append pol hint h1 hlast]
    rfl
  · unfold TreeFrame.build
    rw [if_pos i5]
  · show s'.table = rows
    rw [← i6, i2, h3.rows]

/-- The same calls never spell out two trees. -/
theorem tree_unique {rows rows' : List Row} {cs : List (Nat × Call)} (h : MakesTree rows cs)
    (h' : MakesTree rows' cs) : rows = rows' := by
  obtain ⟨a, t, hp, hb, ht⟩ := tree_complete (fun _ => 0) 0 h
  obtain ⟨a', t', hp', hb', ht'⟩ := tree_complete (fun _ => 0) 0 h'
  rw [hp] at hp'
  cases hp'
  rw [hb] at hb'
  cases hb'
  exact ht.symm.trans ht'

/-- Calls for a tree: before the map is begun nothing can be built; a repeated name,
a wrong kind and an unknown field are refused; the second row is named with a key. -/
def someTree : List (Nat × Call) :=
  [(0, .assignString b!"x"), (0, .beginMap), (0, .assembleEntry b!"a"), (1, .assignNull), (1, .beginMap),
   (1, .assembleEntry b!"mode"), (2, .assignString b!"40000"), (1, .assembleEntry b!"nope"),
   (1, .assembleEntry b!"hash"), (2, .assignLink .nil), (1, .finish), (0, .assembleEntry b!"a"), (0, .assembleKey),
   (0, .keyAssignOther), (0, .keyAssign b!"a"), (0, .assembleValue),
   (1, .assignSelf .treeEntry (treeEntryVal ⟨b!"100644", .nil⟩)), (1, .assignString b!"y"), (0, .finish)]

example : (playTree (fun _ => 0) 0 .fresh someTree).bind (fun p =>
    match p.1.build with | .ok t => some (p.2.length, t.t) | _ => none) =
    some (13, [(b!"a", ⟨b!"40000", .nil⟩), (b!"a", ⟨b!"100644", .nil⟩)]) := by decide +kernel

end Verif.Props
