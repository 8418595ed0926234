import Verif.Proofs.TreeReset
import Verif.Props.TreeHandles
import Verif.Props.Reset

/-!
# `Reset` of tree builders: C81, C82
-/

namespace Verif.Props

open Verif Spec Calls Handles

/-- As `SameAgain`, for tree builders. -/
def SameTreeAgain (o o' : TreeRes) : Prop :=
  match o with
  | .ok _ => ∃ s, o' = .ok s
  | .err e _ => ∃ s, o' = .err e s
  | .panic => o' = .panic
  | .noHandle => True

/-- As `reset_as_new`, for tree builders. -/
theorem reset_tree_as_new {repr : Bool} {grow : Nat → Nat} {hint : Int} {before done : List TreeAct} {b : TreeBuilder}
    (hb : actsTree repr grow hint .fresh before = some (b, done)) {more good : List TreeAct} {c : TreeBuilder}
    (hr : actsTree repr grow hint .fresh more = some (c, good)) :
    ∃ b', actsTree repr grow hint b.reset more = some (b', good) ∧ b'.st.build = c.st.build ∧
      ∀ h d, SameTreeAgain (c.deedAt repr grow hint h d) (b'.deedAt repr grow hint h d) := by
  obtain ⟨b', h3, h4, h5⟩ := actsTree_r (a := .fresh) (a' := b.reset) (fun h => by cases h)
    (tfresh_reset (actsTree_kin hb)) hr
  refine ⟨b', h3, tbuild_r h5.1, fun h d => ?_⟩
  have h6 := tdeedAt_r (b := c) (b' := b') repr grow hint h d h4 h5.1
  generalize c.deedAt repr grow hint h d = o at h6 ⊢
  generalize b'.deedAt repr grow hint h d = o' at h6 ⊢
  cases o <;> cases o' <;> first | exact h6.elim | trivial | exact ⟨_, rfl⟩ | skip
  exact ⟨_, by rw [h6.1]⟩

/-- What is done with a new tree builder without `Reset` is what C85 and C86 are about. -/
theorem actsTree_unreset (repr : Bool) (grow : Nat → Nat) (hint : Int) (cs : List (List Nat × TreeDeed)) :
    (actsTree repr grow hint .fresh (cs.map fun x => .call x.1 x.2)).map (fun p => p.1.st) =
      runTreeDeeds repr grow hint .fresh cs :=
  runTree_acts cs (kin_refl _)

/-- As `reset_lets_go`, for tree builders: the tree that `Build` returned has the map
and the table that it had. -/
theorem reset_tree_lets_go {repr : Bool} {grow : Nat → Nat} {hint : Int} {before done after' done' : List TreeAct}
    {b b' : TreeBuilder} {t : Tree} (hb : actsTree repr grow hint .fresh before = some (b, done))
    (ht : b.st.build = .ok t) (ha : actsTree repr grow hint b.reset after' = some (b', done')) :
    shownTree b.st.map b.st.tab b.st.mem = t ∧ shownTree b.st.map b.st.tab b'.st.mem = t := by
  obtain ⟨c, h1, _, h2⟩ := actsTree_r (a := .fresh) (a' := .fresh) id tfresh_self hb
  rw [hb] at h1
  cases h1
  obtain ⟨c, h3, _, h4⟩ := actsTree_r (a := b.reset) (a' := b.reset) id (treset_self b) ha
  rw [ha] at h3
  cases h3
  have hk : Keeps b.st.mem.next b.st.mem b'.st.mem :=
    keeps_trans (keeps_alloc _ (Nat.le_refl _)) h4.2.keep
  have h5 : shownTree b.st.map b.st.tab b.st.mem = t := by
    unfold TreeSt.build at ht
    split at ht
    · cases ht; rfl
    · cases ht
  exact ⟨h5, (shownTree_keep h2.1 hk).trans h5⟩

/-- Two entries, and the same again for other names after `Reset`. The first tree is
in the end what it was, and the second what a new builder makes of it. -/
def againTree (k1 k2 : Bytes) : List TreeAct :=
  [.call [] (.call .beginMap), .call [] (.call <| .assembleEntry k1), .call [0] (.call .beginMap), .call [0] (.call <| .assembleEntry b!"mode"),
   .call [0, 0] (.call <| .assignString b!"40000"), .call [0] (.call <| .assembleEntry b!"hash"), .call [0, 1] (.call <| .assignLink .nil),
   .call [0] (.call .finish), .call [] (.call .assembleKey), .call [] (.call <| .keyAssign k2), .call [] (.call .assembleValue),
   .call [0] (.call <| .assignSelf .treeEntry (treeEntryVal ⟨b!"100644", .nil⟩)), .call [] (.call .finish)]

example :
    ((actsTree true id 0 .fresh (againTree b!"a" b!"b")).bind fun p =>
      (actsTree true id 0 p.1.reset (againTree b!"c" b!"d")).map fun q =>
        (shownTree p.1.st.map p.1.st.tab q.1.st.mem).t.map (·.1)) = some [b!"a", b!"b"] ∧
    ((actsTree true id 0 .fresh (againTree b!"a" b!"b")).bind fun p =>
      (actsTree true id 0 p.1.reset (againTree b!"c" b!"d")).map fun q => shows q.1.st) =
    some (some [(b!"c", b!"40000", some b!"40000"), (b!"d", b!"100644", some b!"100644")]) :=
  ⟨by decide +kernel, by decide +kernel⟩

/-- The kept handle of a mode, which changes the built tree if there is no `Reset`
(C79), panics after it. -/
example :
    (actsTree true id 0 .fresh (againTree b!"a" b!"b" ++ [.call [0, 0] (.call <| .assignString b!"9")])).isSome = true ∧
    (actsTree true id 0 .fresh (againTree b!"a" b!"b" ++ [.reset, .call [0, 0] (.call <| .assignString b!"9")])).isSome = false := by
  decide +kernel

/-- What a new builder has no handle for: with the map assembler of before, a client
can call `Finish` without `BeginMap`, and `Build` returns an empty tree. -/
example : ((actsTree false id 0 .fresh (againTree b!"a" b!"b" ++ [.reset, .call [] (.call .finish)])).map fun p =>
    shows p.1.st) = some (some []) ∧
    (actsTree false id 0 .fresh [.call [] (.call .finish)]).isSome = false :=
  ⟨by decide +kernel, by decide +kernel⟩

end Verif.Props
