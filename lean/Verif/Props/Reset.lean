import Verif.Proofs.ResetActs
import Verif.Props.Foreign

/-!
# `Reset`: C81, C82
-/

namespace Verif.Props

open Verif Spec Calls Handles

/-! ## C81: a builder that was reset is a new one -/

/-- The second call has the outcome of the first, if the client can make that. -/
def SameAgain (o o' : Handles.Out) : Prop :=
  match o with
  | .ok _ => ∃ s, o' = .ok s
  | .err e _ => ∃ s, o' = .err e s
  | .panic => o' = .panic
  | .noHandle => True

/-- Whatever was done with a builder, after `Reset` it serves a client like a new one:
the same calls return no error, `Build` gives the same, and any further call on a
handle that was given out since has the same outcome. -/
theorem reset_as_new {t : T} {repr : Bool} {grow : Nat → Nat} {before done : List Act} {a : St}
    (hb : acts repr grow (builder t) before = some (a, done)) {more good : List Act} {s : St}
    (hr : acts repr grow (builder t) more = some (s, good)) :
    ∃ s', acts repr grow (Handles.reset a) more = some (s', good) ∧ Handles.build s' = Handles.build s ∧
      ∀ h d, SameAgain (deedAfter repr grow h d s) (deedAfter repr grow h d s') := by
  have hk : Kin false (newObj (rank t) t) a.obj := kin_trans (kin_lend' _) (acts_kin hb)
  obtain ⟨s', h3, h4⟩ := acts_r (builder_reset hk) hr
  refine ⟨s', h3, build_r h4.1, fun h d => ?_⟩
  have h5 := deedAfter_r repr grow h d h4.1
  generalize deedAfter repr grow h d s = o at h5 ⊢
  generalize deedAfter repr grow h d s' = o' at h5 ⊢
  cases o <;> cases o' <;> first | exact h5.elim | trivial | exact ⟨_, rfl⟩ | skip
  exact ⟨_, by rw [h5.1]⟩

/-- What is done with a new builder without `Reset` is what C83 and C84 are about. -/
theorem acts_unreset (t : T) (repr : Bool) (grow : Nat → Nat) (cs : List (List Nat × Deed)) :
    (acts repr grow (builder t) (cs.map fun x => .call x.1 x.2)).map Prod.fst = runDeeds repr grow (builder t) cs :=
  run_acts cs (kin_refl _)

/-- A person is begun, and the builder reset with half of it done. -/
def halfPerson : List Act :=
  [.call [] (.call .beginMap), .call [] (.call <| .assembleEntry b!"date"), .call [0] (.call <| .assignString b!"1"),
   .call [] (.call <| .assembleEntry b!"email")]

example : ((acts true id (builder .person) (halfPerson ++ [.reset] ++
    ([([], .beginMap), ([], .assembleEntry b!"date"), ([0], .assignString b!"7"), ([], .assembleEntry b!"timezone"),
      ([1], .assignString b!"2"), ([], .assembleEntry b!"email"), ([2], .assignString b!"3"),
      ([], .assembleEntry b!"name"), ([3], .assignString b!"4"), ([], .finish)] : List (List Nat × Call)).map
      fun x => .call x.1 (.call x.2))).map fun p => Handles.build p.1) =
    some (.ok (.struct [some (.text b!"7"), some (.text b!"2"), some (.text b!"3"), some (.text b!"4")])) := rfl

/-- A list, half of it given as a node of another type that turns
out to be wrong; after `Reset` there is nothing of it. -/
example :
    let bad := Nd.list (.cons (.text b!"a") (.cons .other .nil))
    let good := Nd.list (.cons (.text b!"b") .nil)
    let built (l : List Act) := (acts false id (builder .stringList) l).map fun p => Handles.build p.1
    built [.call [] (.node bad), .reset, .call [] (.node good)] = some (.ok (.list [.text b!"b"])) ∧
    built [.call [] (.node bad), .reset, .call [0] (.node (.text b!"x"))] = none := ⟨rfl, rfl⟩

/-! ## C82: `Reset` lets go of the value -/

/-- The node that `Build` returned before `Reset` never changes, whatever is done with
whatever handles afterwards, in both views. -/
theorem reset_lets_go {t : T} {repr : Bool} {grow : Nat → Nat} {before done after' done' : List Act} {a b : St} {v : Val}
    (hb : acts repr grow (builder t) before = some (a, done)) (hv : Handles.build a = .ok v)
    (ha : acts repr grow (Handles.reset a) after' = some (b, done')) :
    ∃ p, a.obj.w = some p ∧ shown t p a.mem = v ∧ shown t p b.mem = v := by
  obtain ⟨a', h1, h2⟩ := acts_r (builder_self t) hb
  rw [hb] at h1
  cases h1
  obtain ⟨b', h3, h4⟩ := acts_r (reset_self a) ha
  rw [ha] at h3
  cases h3
  have hk : Keeps a.mem.next a.mem b.mem :=
    keeps_trans (keeps_alloc _ (Nat.le_refl _)) h4.2.keep
  have ht : a.obj.ty = t := by
    have hkin := acts_kin hb
    have : ∀ {o o' : Handles.Obj}, Kin false o o' → o'.ty = o.ty := by
      intro o o' h
      cases h
      rfl
    rw [this hkin]
    show ((newObj (rank t) t).lend (some (0, [])) .builder).ty = t
    generalize rank t = k
    cases k <;> rfl
  unfold Handles.build at hv
  split at hv
  · cases hw : a.obj.w with
    | none => rw [hw] at hv; cases hv
    | some p =>
      rw [hw, ht] at hv
      cases hv
      have hp : PtrR 0 0 a.mem.next p p := by
        have ho := h2.1.obj
        generalize a.obj = o at ho hw
        cases ho with
        | mk h1 =>
          replace hw : _ = some p := hw
          dsimp only [Obj.w] at hw
          subst hw
          exact h1
      exact ⟨p, rfl, rfl, shown_keep h2.1.mem hp hk⟩
  · cases hv

/-- In the representation the kept handle of the date overwrites a finished person
(C76). After `Reset`, it panics; and when the assembler is handed out again, it writes
elsewhere. -/
example :
    let person := [Act.call [] (.call .beginMap), .call [] (.call <| .assembleEntry b!"date"), .call [0] (.call <| .assignString b!"1"),
      .call [] (.call <| .assembleEntry b!"timezone"), .call [1] (.call <| .assignString b!"2"),
      .call [] (.call <| .assembleEntry b!"email"), .call [2] (.call <| .assignString b!"3"),
      .call [] (.call <| .assembleEntry b!"name"), .call [3] (.call <| .assignString b!"4"), .call [] (.call .finish)]
    let show' (l : List Act) := (acts true id (builder .person) (person ++ l)).map fun p => shown .person (0, []) p.1.mem
    show' [.call [0] (.call <| .assignString b!"9")] =
      some (.struct [some (.text b!"9"), some (.text b!"2"), some (.text b!"3"), some (.text b!"4")]) ∧
    show' [.reset, .call [0] (.call <| .assignString b!"9")] = none ∧
    show' [.reset, .call [] (.call .beginMap), .call [] (.call <| .assembleEntry b!"date"), .call [0] (.call <| .assignString b!"9")] =
      some (.struct [some (.text b!"1"), some (.text b!"2"), some (.text b!"3"), some (.text b!"4")]) :=
  ⟨rfl, rfl, rfl⟩

end Verif.Props
