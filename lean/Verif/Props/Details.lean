import Verif.Proofs.Details
import Verif.Props.TreePlay

/-!
# C89: errors say what was wrong
-/

namespace Verif.Props

open Verif Spec Calls

/-- Whatever a client did with a builder, a call that returns an error says what is
wrong with it, and a call with which something is wrong never succeeds. -/
theorem errors_truthful {t : T} {cs good : List (Nat × Call)} {a : Frame}
    (hp : play (fresh t) cs = some (a, good)) (repr : Bool) (d : Nat) (c : Call) :
    (∀ e a', a.callAt d c = .err e a' →
      ∃ u x, typeAt t good d = some u ∧ a.whyAt repr d c = some x ∧ x.err = e ∧
        Wrong repr u (keysAt d good) c x) ∧
    (∀ a', a.callAt d c = .ok a' →
      ∃ u, typeAt t good d = some u ∧ a.whyAt repr d c = none ∧ ∀ x, ¬ Wrong repr u (keysAt d good) c x) := by
  have h := play_inv (.idle t) hp
  rw [List.nil_append] at h
  exact callAt_told h repr d c

theorem keyWhy_iff (repr : Bool) (t : T) (fs : List FieldT) (k : Bytes) (s : Nat) :
    match takeKey fs k s with
    | .err e => ∃ x, keyWhy repr t fs k s = some x ∧ x.err = e
    | _ => keyWhy repr t fs k s = none := by
  unfold takeKey keyWhy
  cases hfd : find fs k with
  | none => exact ⟨_, rfl, rfl⟩
  | some i =>
    obtain ⟨fd, hf, _⟩ := find_some hfd
    have hf' : fs[i]? = some fd := hf
    by_cases hb : s &&& 1 <<< i ≠ 0
    · simp only [if_pos hb, hf', Option.map_some]
      exact ⟨_, rfl, rfl⟩
    · simp only [if_neg hb, hf']

theorem why_call (repr : Bool) (a : Frame) (c : Call) :
    match a.call c with
    | .err e _ => ∃ x, a.why repr c = some x ∧ x.err = e
    | _ => a.why repr c = none := by
  obtain ⟨t, w, m, b, ph, s, f, ch⟩ := a
  cases c with
  | beginMap =>
    cases t <;> cases m <;> first | exact ⟨_, rfl, rfl⟩ | rfl
  | beginList n =>
    cases t <;> cases m <;> first | exact ⟨_, rfl, rfl⟩ | rfl
  | assignNull =>
    simp only [Frame.call, Calls.assignNull, Frame.why]
    by_cases hm : (Frame.mk t w m b ph s f ch).m = .absent
    · simp only [if_pos hm]; exact ⟨_, rfl, rfl⟩
    · simp only [if_neg hm]
  | assignOther => exact ⟨_, rfl, rfl⟩
  | assignString x =>
    cases t <;> cases m <;> first | exact ⟨_, rfl, rfl⟩ | rfl
  | assignLink x =>
    cases t <;> cases m <;> first | exact ⟨_, rfl, rfl⟩ | rfl
  | assignSelf u v =>
    simp only [Frame.call, Calls.assignSelf, Frame.why]
    split
    · rename_i h
      (repeat' split at h) <;> cases h
    · trivial
  | assembleEntry k =>
    cases b with
    | false => rfl
    | true =>
      simp only [Frame.call, Frame.why, Frame.begun, if_true, Calls.assembleEntry, Frame.ty]
      cases t.shape with
      | struct fs =>
        dsimp only
        cases hr : ready (.mk t w m true ph s f ch) with
        | none => rfl
        | some a1 =>
          obtain ⟨t1, w1, m1, b1, ph1, s1, f1, c1⟩ := a1
          have := keyWhy_iff repr t fs k s1
          simp only [Frame.s]
          cases htk : takeKey fs k s1 <;> rw [htk] at this <;> exact this
      | _ => rfl
  | assembleKey =>
    simp only [Frame.call, Calls.assembleKey, Frame.why]
    split
    · rename_i h
      (repeat' split at h) <;> cases h
    · trivial
  | keyAssign k =>
    cases b with
    | false => rfl
    | true =>
      simp only [Frame.call, Frame.why, Frame.begun, if_true, Calls.keyAssign, Frame.ty, Frame.ph, Frame.s]
      cases t.shape with
      | struct fs =>
        dsimp only
        have := keyWhy_iff repr t fs k s
        cases ph <;> first | rfl | (cases htk : takeKey fs k s <;> rw [htk] at this <;> exact this)
      | _ => rfl
  | keyAssignOther =>
    cases b with
    | false => rfl
    | true =>
      simp only [Frame.call, Frame.why, Frame.begun, if_true, Calls.keyAssignOther, Frame.ty]
      cases t.shape <;> first | rfl | exact ⟨_, rfl, rfl⟩
  | assembleValue =>
    simp only [Frame.call, Calls.assembleValue, Frame.why]
    split
    · rename_i h
      (repeat' split at h) <;> cases h
    · trivial
  | finish =>
    cases b with
    | false => rfl
    | true =>
      simp only [Frame.call, Frame.why, Frame.begun, if_true, Calls.finish, Frame.ty]
      cases t.shape with
      | struct fs =>
        dsimp only
        cases hr : ready (.mk t w m true ph s f ch) with
        | none => rfl
        | some a1 =>
          obtain ⟨t1, w1, m1, b1, ph1, s1, f1, c1⟩ := a1
          show match (if s1 &&& sufficient fs ≠ sufficient fs then Out.err .missingField (.mk t1 w1 m1 b1 ph1 s1 f1 c1)
              else .ok (.mk t1 w1 .value b1 .finished s1 f1 c1)) with
            | .err e _ => ∃ x, (if s1 &&& sufficient fs ≠ sufficient fs then some (Detail.missing (missingFrom 0 fs s1))
                else none) = some x ∧ x.err = e
            | _ => (if s1 &&& sufficient fs ≠ sufficient fs then some (Detail.missing (missingFrom 0 fs s1))
                else none) = none
          by_cases hs : s1 &&& sufficient fs ≠ sufficient fs
          · rw [if_pos hs, if_pos hs]
            exact ⟨_, rfl, rfl⟩
          · rw [if_neg hs, if_neg hs]
      | list e =>
        dsimp only
        cases hr : ready (.mk t w m true ph s f ch) with
        | none => rfl
        | some a1 => obtain ⟨t1, w1, m1, b1, ph1, s1, f1, c1⟩ := a1; rfl
      | _ => rfl

/-- In any state of a builder whatsoever, exactly the calls that return an error
carry a detail, and it is of the error's kind. -/
theorem errors_have_details (repr : Bool) (a : Frame) (d : Nat) (c : Call) :
    match a.callAt d c with
    | .err e _ => ∃ x, a.whyAt repr d c = some x ∧ x.err = e
    | _ => a.whyAt repr d c = none := by
  induction d generalizing a with
  | zero => exact why_call repr a c
  | succ d ih =>
    simp only [Frame.callAt, Frame.whyAt]
    cases hch : a.child with
    | none => rfl
    | some ch =>
      have := ih ch
      dsimp only
      cases hc : ch.callAt d c <;> rw [hc] at this <;> exact this

/-- `Finish` with fields missing names them, all of them, in the order of the
schema; and it only ever fails for that. -/
theorem finish_names_missing {t : T} {cs good : List (Nat × Call)} {a a' : Frame} {e : Err}
    (hp : play (fresh t) cs = some (a, good)) (repr : Bool) (d : Nat) (hc : a.callAt d .finish = .err e a') :
    ∃ u, typeAt t good d = some u ∧ a.whyAt repr d .finish = some (.missing (stillMissing u (keysAt d good))) ∧
      stillMissing u (keysAt d good) ≠ [] := by
  obtain ⟨u, x, hu, hx, _, hw⟩ := (errors_truthful hp repr d .finish).1 e a' hc
  refine ⟨u, hu, ?_⟩
  cases x with
  | wrongKind n => cases hw.1
  | invalidKey n k => cases hw.1
  | repeatedKey k => cases hw.1
  | missing ks =>
    obtain ⟨_, rfl, h2⟩ := hw
    exact ⟨hx, h2⟩

/-- What is wrong with a call is one thing only. -/
theorem wrong_unique {repr : Bool} {t : T} {ks : List Bytes} {c : Call} {x y : Detail}
    (hx : Wrong repr t ks c x) (hy : Wrong repr t ks c y) : x = y := by
  have kind : ∀ {n}, Wrong repr t ks c (.wrongKind n) → keyOf c = none ∧ c ≠ .finish := by
    rintro n ⟨h, _⟩
    cases c <;> first | (cases h; done) | exact ⟨rfl, by simp⟩
  cases x with
  | wrongKind n =>
    cases y with
    | wrongKind n' => rw [hx.2, hy.2]
    | invalidKey n' k => have := (kind hx).1; rw [hy.1] at this; cases this
    | repeatedKey k => have := (kind hx).1; rw [hy.1] at this; cases this
    | missing ns => exact absurd hy.1 (kind hx).2
  | invalidKey n k =>
    cases y with
    | wrongKind n' => have := (kind hy).1; rw [hx.1] at this; cases this
    | invalidKey n' k' =>
      have := hx.1.symm.trans hy.1
      cases this
      rw [hx.2.2, hy.2.2]
    | repeatedKey k' =>
      have := hx.1.symm.trans hy.1
      cases this
      exact absurd hy.2.1 hx.2.1
    | missing ns => have := hx.1; rw [hy.1] at this; cases this
  | repeatedKey k =>
    cases y with
    | wrongKind n' => have := (kind hy).1; rw [hx.1] at this; cases this
    | invalidKey n' k' =>
      have := hx.1.symm.trans hy.1
      cases this
      exact absurd hx.2.1 hy.2.1
    | repeatedKey k' =>
      have := hx.1.symm.trans hy.1
      cases this
      rfl
    | missing ns => have := hx.1; rw [hy.1] at this; cases this
  | missing ns =>
    cases y with
    | wrongKind n' => exact absurd hx.1 (kind hy).2
    | invalidKey n' k' => have := hy.1; rw [hx.1] at this; cases this
    | repeatedKey k' => have := hy.1; rw [hx.1] at this; cases this
    | missing ns' => rw [hx.2.1, hy.2.1]

theorem keysFrom_treeNames {rows : List Row} {k : Bytes} {nm : List (Nat × Call)} (h : TreeNames rows k nm) :
    Names k nm := by
  cases h
  · exact .entry
  · exact .keyValue

theorem treeEntries_keys {rows : List Row} {es : List (Nat × Call)} (h : TreeEntries rows es) :
    keysFrom 0 [] es = rows.map Prod.fst := by
  induction h with
  | nil => rfl
  | snoc _ hn _ ih =>
    rw [keysFrom_append, keysFrom_append, keysFrom_deeper_zero, keysFrom_names_zero (keysFrom_treeNames hn), ih]
    simp

theorem typeInTree_shift {cs c : List (Nat × Call)} (hk : ∀ d, keysAt (d + 1) cs = keysAt d c) (d : Nat) :
    typeInTree cs d = typeAt .treeEntry c d := by
  induction d with
  | zero => rfl
  | succ d ih => rw [typeInTree, ih, hk d]; rfl

/-- Calls of the tree assembler that never return an error. -/
theorem tree_never_errs (pol : TreeAsm → Nat) (hint : Int) {a : TreeFrame} {c : Call}
    (hc : c = .beginMap ∨ (∃ u v, c = .assignSelf u v) ∨ c = .assembleKey ∨ (∃ k, c = .keyAssign k) ∨
      c = .assembleValue ∨ c = .finish) (e : Err) (a' : TreeFrame) : a.call pol hint c ≠ .err e a' := by
  intro he
  rcases hc with rfl | ⟨u, v, rfl⟩ | rfl | ⟨k, rfl⟩ | rfl | rfl
  · obtain ⟨s, hs, -⟩ := ret_err he
    unfold TreeAsm.beginMap at hs
    split at hs <;> cases hs
  · cases he
  · simp only [TreeFrame.call] at he
    split at he
    · obtain ⟨s, hs, -⟩ := ret_err he
      unfold TreeAsm.assembleKey at hs
      split at hs <;> cases hs
    · cases he
  · simp only [TreeFrame.call] at he
    split at he
    · obtain ⟨s, hs, -⟩ := ret_err he
      unfold TreeAsm.keyAssign at hs
      (repeat' split at hs) <;> cases hs
    · cases he
  · simp only [TreeFrame.call] at he
    split at he
    · obtain ⟨s, hs, -⟩ := ret_err he
      unfold TreeAsm.assembleValue at hs
      split at hs
      · split at hs
        · split at hs
          · cases hs
          · unfold TreeAsm.put at hs
            cases hm : a.s.map with
            | none => rw [hm] at hs; cases hs
            | some mm => rw [hm] at hs; cases hs
        · cases hs
      · cases hs
      · cases hs
    · cases he
  · simp only [TreeFrame.call] at he
    split at he
    · obtain ⟨s, hs, -⟩ := ret_err he
      unfold TreeAsm.finish at hs
      split at hs <;> cases hs
    · cases he

/-- The same of a tree builder, of its key assembler, and of the handles inside its
entries. Only `AssembleEntry` refuses names. -/
theorem tree_errors_truthful (pol : TreeAsm → Nat) (hint : Int) {cs good : List (Nat × Call)} {a : TreeFrame}
    (hw : ∀ d u x, (d, Call.assignSelf u x) ∈ cs → Complete u x)
    (hp : playTree pol hint .fresh cs = some (a, good)) (repr : Bool) (c : Call) :
    ((∀ e a', a.callAt pol hint 0 c = .err e a' →
        ∃ x, a.whyAt repr 0 c = some x ∧ x.err = e ∧ WrongTree repr (keysAt 0 good) c x) ∧
      (∀ a', a.callAt pol hint 0 c = .ok a' →
        a.whyAt repr 0 c = none ∧ ∀ x, ¬ WrongTree repr (keysAt 0 good) c x)) ∧
    ∀ d, (∀ e a', a.callAt pol hint (d + 1) c = .err e a' →
        ∃ u x, typeInTree good d = some u ∧ a.whyAt repr (d + 1) c = some x ∧ x.err = e ∧
          Wrong repr u (keysAt (d + 1) good) c x) ∧
      (∀ a', a.callAt pol hint (d + 1) c = .ok a' →
        ∃ u, typeInTree good d = some u ∧ a.whyAt repr (d + 1) c = none ∧
          ∀ x, ¬ Wrong repr u (keysAt (d + 1) good) c x) := by
  have h := playTree_inv .idle hw hp
  rw [List.nil_append] at h
  refine ⟨?_, fun d => ?_⟩
  · simp only [TreeFrame.callAt, TreeFrame.whyAt]
    cases c with
    | beginList n =>
      refine ⟨fun e a' he => ?_, fun a' he => by cases he⟩
      cases he
      refine ⟨_, rfl, rfl, ?_⟩
      cases repr <;> rfl
    | assignOther =>
      refine ⟨fun e a' he => ?_, fun a' he => by cases he⟩
      cases he
      refine ⟨_, rfl, rfl, ?_⟩
      cases repr <;> rfl
    | assignString x =>
      refine ⟨fun e a' he => ?_, fun a' he => by cases he⟩
      cases he
      refine ⟨_, rfl, rfl, ?_⟩
      cases repr <;> rfl
    | assignLink x =>
      refine ⟨fun e a' he => ?_, fun a' he => by cases he⟩
      cases he
      refine ⟨_, rfl, rfl, ?_⟩
      cases repr <;> rfl
    | assignNull =>
      simp only [TreeFrame.call, TreeFrame.why]
      split
      · refine ⟨fun e a' he => ?_, fun a' he => by cases he⟩
        cases he
        refine ⟨_, rfl, rfl, ?_⟩
        cases repr <;> rfl
      · exact ⟨fun e a' he => (by cases he), fun a' he => by cases he⟩
    | keyAssignOther =>
      simp only [TreeFrame.call, TreeFrame.why]
      split
      · refine ⟨fun e a' he => ?_, fun a' he => by cases he⟩
        cases he
        exact ⟨_, rfl, rfl, rfl⟩
      · exact ⟨fun e a' he => (by cases he), fun a' he => by cases he⟩
    | assembleEntry k =>
      simp only [TreeFrame.call, TreeFrame.why]
      split
      · rename_i hb
        refine ⟨fun e a' he => ?_, fun a' he => ?_⟩
        · obtain ⟨s, hs, rfl⟩ := ret_err he
          obtain ⟨_, i2, i3, _, _, _, i7, _⟩ := TreeAsm.assembleEntry_err (part_map h) hs
          obtain ⟨rows, es, h1, _, h3, rfl⟩ := part_ready h hb i7
          have hg : (TreeAsm.get s.map k).isSome = true := by
            unfold TreeAsm.assembleEntry at hs
            rw [i7] at hs
            simp only at hs
            cases hg : TreeAsm.get s.map k with
            | some p => rfl
            | none =>
              rw [hg] at hs
              simp only at hs
              unfold TreeAsm.put at hs
              (repeat' split at hs) <;> simp_all
          obtain ⟨p, hg⟩ := Option.isSome_iff_exists.1 hg
          rw [i7]
          simp only [hg, Option.map_some]
          refine ⟨_, rfl, i3.symm, rfl, ?_⟩
          rw [keysAt_eq, keysFrom_begin _ _ rfl, treeEntries_keys h3, ← h1.rows]
          exact i2
        · obtain ⟨s, hs, rfl⟩ := ret_ok he
          obtain ⟨s0, hr⟩ := entry_state hs
          obtain ⟨rows, es, h1, h2, h3, rfl⟩ := part_ready h hb hr
          obtain ⟨_, i2, _⟩ := TreeAsm.assembleEntry_ok h1.between.1 hs
          have hg : TreeAsm.get s0.map k = none := by
            unfold TreeAsm.assembleEntry at hs
            rw [hr] at hs
            simp only at hs
            cases hg : TreeAsm.get s0.map k with
            | some p => rw [hg] at hs; cases hs
            | none => rfl
          rw [hr]
          simp only [hg, Option.map_none]
          refine ⟨trivial, fun x hx => ?_⟩
          cases x with
          | repeatedKey k' =>
            obtain ⟨h4, h5⟩ := hx
            cases h4
            rw [keysAt_eq, keysFrom_begin _ _ rfl, treeEntries_keys h3, ← h1.rows] at h5
            exact i2 h5
          | _ => exact hx
      · exact ⟨fun e a' he => (by cases he), fun a' he => by cases he⟩
    | _ =>
      refine ⟨fun e a' he => ?_, fun a' _ => ⟨rfl, fun x hx => ?_⟩⟩
      · exact absurd he (tree_never_errs pol hint (by simp) e a')
      · cases x with
        | repeatedKey k' => cases hx.1
        | _ => exact hx
  · simp only [TreeFrame.callAt, TreeFrame.whyAt]
    cases hch : a.child with
    | none => exact ⟨fun e a' he => (by cases he), fun a' he => by cases he⟩
    | some ch =>
      obtain ⟨rows, es, nm, c', k, _, _, _, h4, h5, _, rfl⟩ := part_child h hch
      have hk : ∀ d, keysAt (d + 1) ((0, Call.beginMap) :: (es ++ nm ++ deeper c')) = keysAt d c' := by
        intro d
        rw [keysAt_eq, keysFrom_begin _ _ rfl, keysFrom_append, keysFrom_append,
          keysFrom_names (keysFrom_treeNames h4), keysFrom_deeper]
        rfl
      rw [typeInTree_shift hk d, hk d]
      have := callAt_told h5 repr d c
      simp only
      refine ⟨fun e a' he => ?_, fun a' he => ?_⟩
      · cases hcc : ch.callAt d c with
        | err e' ch' => rw [hcc] at he; cases he; exact this.1 _ _ hcc
        | _ => rw [hcc] at he; cases he
      · cases hcc : ch.callAt d c with
        | ok ch' => exact this.2 _ hcc
        | _ => rw [hcc] at he; cases he

/-! ## Cases -/

/-- A tag, given its object and the date of its tagger: `Finish` of the tagger lists
what it lacks. -/
example : ∃ a, play (fresh .tag) [(0, .beginMap), (0, .assembleEntry b!"object"), (1, .assignLink .nil),
      (0, .assembleEntry b!"tagger"), (1, .beginMap), (1, .assembleEntry b!"email"), (2, .assignString b!"x")] =
        some (a, [(0, .beginMap), (0, .assembleEntry b!"object"), (1, .assignLink .nil),
      (0, .assembleEntry b!"tagger"), (1, .beginMap), (1, .assembleEntry b!"email"), (2, .assignString b!"x")]) ∧
    (∃ e a', a.callAt 1 .finish = .err e a') ∧
    a.whyAt true 1 .finish = some (.missing [b!"date", b!"timezone", b!"name"]) ∧
    a.whyAt false 1 (.assembleEntry b!"email") = some (.repeatedKey b!"email") ∧
    a.whyAt true 1 (.assembleEntry b!"mail") = some (.invalidKey b!"ipldgit.PersonInfo.Repr" b!"mail") ∧
    a.whyAt false 0 (.beginList 0) = some (.wrongKind b!"ipldgit.Tag") :=
  ⟨_, rfl, ⟨_, _, rfl⟩, rfl, rfl, rfl, rfl⟩

/-- The keys and types behind them. -/
example :
    let good : List (Nat × Call) := [(0, .beginMap), (0, .assembleEntry b!"object"), (1, .assignLink .nil),
      (0, .assembleEntry b!"tagger"), (1, .beginMap), (1, .assembleEntry b!"email"), (2, .assignString b!"x")]
    keysAt 0 good = [b!"object", b!"tagger"] ∧ keysAt 1 good = [b!"email"] ∧ typeAt .tag good 1 = some .person ∧
      typeAt .tag good 2 = some .string ∧ stillMissing .person (keysAt 1 good) = [b!"date", b!"timezone", b!"name"] :=
  ⟨by decide, by decide, by decide, by decide, by decide⟩

/-- A builder of the representation that is given null says `.Repr` twice. -/
example : (fresh .tag).whyAt true 0 .assignNull = some (.wrongKind b!"ipldgit.Tag.Repr.Repr") ∧
    Wrong true .tag [] .assignNull (.wrongKind b!"ipldgit.Tag.Repr.Repr") :=
  ⟨rfl, rfl, rfl⟩

/-- A tree with one name in it. -/
example : ∃ a g, playTree (fun _ => 0) 0 .fresh [(0, .beginMap), (0, .assembleEntry b!"f"), (1, .beginMap),
      (1, .assembleEntry b!"mode"), (2, .assignString b!"1"), (1, .assembleEntry b!"hash"), (2, .assignLink .nil),
      (1, .finish)] = some (a, g) ∧
    (∃ e a', a.callAt (fun _ => 0) 0 0 (.assembleEntry b!"f") = .err e a') ∧
    a.whyAt true 0 (.assembleEntry b!"f") = some (.repeatedKey b!"f") :=
  ⟨_, _, rfl, ⟨_, _, rfl⟩, rfl⟩

end Verif.Props
