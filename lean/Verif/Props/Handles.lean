import Verif.Proofs.HandlesFlat

/-!
# Kept handles

A client may use any handle that a builder or one of its assemblers has ever given
it. `Verif.Model.Handles` says what its calls then do to memory.
-/

namespace Verif.Props

open Verif Spec Calls

/-! ## C74: the current handles -/

theorem play_sub {a a' : Frame} {cs good : List (Nat × Call)} (h : play a cs = some (a', good)) :
    ∀ x ∈ good, x ∈ cs := by
  induction cs generalizing a good with
  | nil => cases h; exact fun x h => h
  | cons y r ih =>
    obtain ⟨d, c⟩ := y
    simp only [play] at h
    split at h
    · rename_i b _
      cases hb : play b r with
      | none => rw [hb] at h; cases h
      | some q =>
        rw [hb] at h
        cases h
        intro x hx
        rcases List.mem_cons.1 hx with hx | hx
        · exact hx ▸ List.mem_cons_self
        · exact List.mem_cons_of_mem _ (ih hb x hx)
    · exact fun x hx => List.mem_cons_of_mem _ (ih h x hx)
    · cases h
    · cases h

/-- A call in memory has the outcome that `Verif.Model.Calls` says. -/
def SameOutcome (h : Handles.Out) (c : Calls.Out) : Prop :=
  match c with
  | .ok _ => ∃ st, h = .ok st
  | .err e _ => ∃ st, h = .err e st
  | .panic => h = .panic
  | .noHandle => True

/-- A client that always uses the handle it got last cannot tell the assemblers in
memory from those of `Verif.Model.Calls`, in either view and however arrays grow:
the same calls return no error, `Build` gives the same, and so does one more call. -/
theorem current_handles {t : T} {cs good : List (Nat × Call)} {a : Frame} (repr : Bool) (grow : Nat → Nat)
    (hc : ∀ d u v, (d, Call.assignSelf u v) ∈ cs → Complete u v)
    (hp : play (fresh t) cs = some (a, good)) :
    ∃ st g, run repr grow (Handles.builder t) (onCurrent (fresh t) cs) = some (st, g) ∧ depths g = good ∧
      Handles.build st = a.build ∧
      ∀ d c, (∀ u v, c = .assignSelf u v → Complete u v) →
        SameOutcome (Handles.callAt repr grow (current d a) c st) (a.callAt d c) := by
  obtain ⟨μ, mk, o, F, g, h1, h2, h3⟩ := Handles.run_play repr grow (.idle t) (Handles.sim_start t) hc hp
  have hi := play_inv (.idle t) hp
  refine ⟨⟨μ, mk, o⟩, g, h1, h2, ?_, fun d c hcc => ?_⟩
  · refine Handles.sim_build hi h3 fun d u v hm => ?_
    exact hc d u v (play_sub hp _ hm)
  · have hs := Handles.sim_callAt repr grow hi h3 d c hcc
    unfold SameOutcome
    cases ho : a.callAt d c with
    | ok a' => rw [ho] at hs; obtain ⟨_, _, _, _, he, -⟩ := hs; exact ⟨_, he⟩
    | err e a' => rw [ho] at hs; obtain ⟨_, _, _, _, he, -⟩ := hs; exact ⟨_, he⟩
    | panic => rw [ho] at hs; exact hs
    | noHandle => exact trivial

/-- A list of two parents with the second refused once. -/
def listCalls : List (Nat × Call) :=
  [(0, .beginList 1), (0, .assembleValue), (1, .assignLink .nil), (0, .assembleValue), (1, .assignString b!"x"),
   (1, .assignLink (.other 7)), (0, .finish)]

example : onCurrent (fresh .linkList) listCalls = [([], .beginList 1), ([], .assembleValue), ([0], .assignLink .nil),
    ([], .assembleValue), ([0], .assignString b!"x"), ([0], .assignLink (.other 7)), ([], .finish)] := rfl

/-- The hypotheses hold of it, and the value is the list of the two. -/
example : ∃ st g, run true id (Handles.builder .linkList) (onCurrent (fresh .linkList) listCalls) = some (st, g) ∧
    g.length = 6 ∧ Handles.build st = .ok (.list [.link .nil, .link (.other 7)]) := by
  have hp : play (fresh .linkList) listCalls = some (.mk .linkList (.list [.link .nil, .link (.other 7)]) .value
      true .finished 0 0 none, listCalls.eraseIdx 4) := rfl
  obtain ⟨st, g, h1, h2, h3, -⟩ := current_handles true id (by intro d u v h; simp [listCalls] at h) hp
  refine ⟨st, g, h1, ?_, h3⟩
  have := congrArg List.length h2
  simpa [depths, listCalls] using this

/-! ## C75: any handles -/

/-- The types and views that kept handles cannot confuse: scalars, lists of scalars,
and the typed view of people and tree entries. -/
def keepsApart : T → Bool → Bool
  | .string, _ | .gpgSig, _ | .link, _ | .treeLink, _ | .commitLink, _ | .linkList, _ | .stringList, _ => true
  | .person, false | .treeEntry, false => true
  | _, _ => false

/-- The text of the second field. -/
def second : Val → Bytes
  | .struct [_, some (.text b)] => b
  | .struct [_, some (.text b), _, _] => b
  | _ => []

/-- The calls end in a value other than the one that those of them spell out that
returned no error, if they do. -/
def confuses (t : T) (repr : Bool) (cs : List (List Nat × Call)) : Bool :=
  match run repr id (Handles.builder t) cs with
  | none => false
  | some (a, good) =>
    match Handles.build a with
    | .ok v =>
      match play (fresh t) (depths good) with
      | none => true
      | some (b, _) =>
        match b.build with
        | .ok v' => decide (second v ≠ second v')
        | _ => true
    | _ => false

theorem unsafe_of {t : T} {repr : Bool} {cs : List (List Nat × Call)} (hc : GivesComplete cs)
    (h : confuses t repr cs = true) : ¬ HandlesSafe t repr := by
  intro hs
  unfold confuses at h
  split at h
  · cases h
  · rename_i a good hr
    split at h
    · rename_i v hb
      obtain ⟨b, hp, hb'⟩ := builder_complete (hs id cs good a v hc hr hb)
      rw [hp] at h
      simp only [hb', ne_eq, not_true_eq_false, decide_false] at h
      cases h
    · cases h

/-- The handle of the date is used for the other fields, which share its mark. -/
def keptPerson : List (List Nat × Call) :=
  [([], .beginMap), ([], .assembleEntry b!"date"), ([0], .assignString b!"1"),
   ([], .assembleEntry b!"timezone"), ([0], .assignString b!"2"),
   ([], .assembleEntry b!"email"), ([0], .assignString b!"3"),
   ([], .assembleEntry b!"name"), ([0], .assignString b!"4"), ([], .finish)]

/-- In the typed view the kept handle panics, in the representation it overwrites the
date, and the other fields stay empty. -/
example : (run false id (Handles.builder .person) keptPerson).isNone = true ∧
    (run true id (Handles.builder .person) keptPerson).map (fun p => (Handles.build p.1, p.2.length)) =
      some (.ok (.struct [some (.text b!"4"), some (.text []), some (.text []), some (.text [])]), 10) :=
  ⟨rfl, rfl⟩

/-- The handle of the mode is used for the hash. -/
def keptEntry : List (List Nat × Call) :=
  [([], .beginMap), ([], .assembleEntry b!"mode"), ([0], .assignString b!"1"),
   ([], .assembleEntry b!"hash"), ([0], .assignString b!"2"), ([], .finish)]

def aPerson : Val := .struct [some (.text b!"1"), some (.text b!"2"), some (.text b!"3"), some (.text b!"4")]

/-- The tagger is given, and given again whenever another field is expected. -/
def keptTag : List (List Nat × Call) :=
  [([], .beginMap), ([], .assembleEntry b!"tagger"), ([3], .assignSelf .person aPerson),
   ([], .assembleEntry b!"object"), ([3], .assignSelf .person aPerson),
   ([], .assembleEntry b!"type"), ([3], .assignSelf .person aPerson),
   ([], .assembleEntry b!"tag"), ([3], .assignSelf .person aPerson),
   ([], .assembleEntry b!"message"), ([3], .assignSelf .person aPerson), ([], .finish)]

def keptTagList : List (List Nat × Call) :=
  [([], .beginList 0), ([], .assembleValue)] ++ keptTag.map (fun x => (0 :: x.1, x.2)) ++ [([], .finish)]

/-- The list of parents is given, and begun and finished again when the tree is
expected. -/
def keptCommit : List (List Nat × Call) :=
  [([], .beginMap), ([], .assembleEntry b!"parents"), ([1], .assignSelf .linkList (.list [])),
   ([], .assembleEntry b!"mergetag"), ([7], .assignSelf .tagList (.list [])),
   ([], .assembleEntry b!"other"), ([8], .assignSelf .stringList (.list [])),
   ([], .assembleEntry b!"message"), ([2], .assignString b!"m"),
   ([], .assembleEntry b!"tree"), ([1], .beginList 0), ([1], .finish), ([], .finish)]

/-- The commit has no tree, though the tree is required and no call failed. -/
example : (run false id (Handles.builder .commit) keptCommit).map (fun p => (Handles.build p.1, p.2.length)) =
    some (.ok (.struct [some (.link .nil), some (.list []), some (.text b!"m"), none, none, none, none,
      some (.list []), some (.list [])]), 13) := rfl

theorem aPerson_complete : Complete .person aPerson := by
  refine .struct rfl _ rfl ?_ ?_
  · intro i fd hf hr
    match i with
    | 0 => exact ⟨_, rfl⟩
    | 1 => exact ⟨_, rfl⟩
    | 2 => exact ⟨_, rfl⟩
    | 3 => exact ⟨_, rfl⟩
    | i + 4 => cases hf
  · intro i fd v hf hv
    match i with
    | 0 => cases hf; cases hv; exact .text rfl _
    | 1 => cases hf; cases hv; exact .text rfl _
    | 2 => cases hf; cases hv; exact .text rfl _
    | 3 => cases hf; cases hv; exact .text rfl _
    | i + 4 => cases hf

theorem keptPerson_complete : GivesComplete keptPerson := by
  intro h u x hm
  simp [keptPerson] at hm

theorem keptEntry_complete : GivesComplete keptEntry := by
  intro h u x hm
  simp [keptEntry] at hm

theorem keptTag_complete : GivesComplete keptTag := by
  intro h u x hm
  simp only [keptTag, List.mem_cons, Prod.mk.injEq, reduceCtorEq, and_false, Call.assignSelf.injEq, false_or,
    List.not_mem_nil, or_false] at hm
  have : u = .person ∧ x = aPerson := by simp_all
  rw [this.1, this.2]
  exact aPerson_complete

theorem keptTagList_complete : GivesComplete keptTagList := by
  intro h u x hm
  simp only [keptTagList, List.mem_append, List.mem_map, List.mem_cons, Prod.mk.injEq, reduceCtorEq, and_false,
    List.not_mem_nil, or_false, false_or] at hm
  obtain ⟨y, hy, -, he⟩ := hm
  exact keptTag_complete y.1 u x (by rw [← he]; exact hy)

theorem keptCommit_complete : GivesComplete keptCommit := by
  intro h u x hm
  simp only [keptCommit, List.mem_cons, Prod.mk.injEq, reduceCtorEq, and_false, Call.assignSelf.injEq, false_or,
    List.not_mem_nil, or_false] at hm
  rcases hm with ⟨-, rfl, rfl⟩ | ⟨-, rfl, rfl⟩ | ⟨-, rfl, rfl⟩
  · exact .list rfl _ (by simp)
  · exact .list rfl _ (by simp)
  · exact .list rfl _ (by simp)

/-- Exactly for these types and views can a client that keeps handles, and uses them
when it should not, never build a value other than the one its successful calls
spell out. -/
theorem kept_handles (t : T) (repr : Bool) : HandlesSafe t repr ↔ keepsApart t repr = true := by
  have bad : ∀ {t repr}, ¬ HandlesSafe t repr → keepsApart t repr = false →
      (HandlesSafe t repr ↔ keepsApart t repr = true) := by
    intro t repr h1 h2
    rw [h2]
    exact ⟨fun h => absurd h h1, fun h => by cases h⟩
  have good : ∀ {t repr}, Handles.Flat t repr → keepsApart t repr = true →
      (HandlesSafe t repr ↔ keepsApart t repr = true) :=
    fun h1 h2 => ⟨fun _ => h2, fun _ => Handles.flat_safe h1⟩
  cases t with
  | string => exact good (by trivial) rfl
  | gpgSig => exact good (by trivial) rfl
  | link => exact good (by trivial) rfl
  | treeLink => exact good (by trivial) rfl
  | commitLink => exact good (by trivial) rfl
  | linkList => exact good rfl rfl
  | stringList => exact good rfl rfl
  | person =>
    cases repr with
    | false => exact good ⟨rfl, by decide⟩ rfl
    | true => exact bad (unsafe_of keptPerson_complete (by decide +kernel)) rfl
  | treeEntry =>
    cases repr with
    | false => exact good ⟨rfl, by decide⟩ rfl
    | true => exact bad (unsafe_of keptEntry_complete (by decide +kernel)) rfl
  | tag => cases repr <;> exact bad (unsafe_of keptTag_complete (by decide +kernel)) rfl
  | tagList => cases repr <;> exact bad (unsafe_of keptTagList_complete (by decide +kernel)) rfl
  | commit => cases repr <;> exact bad (unsafe_of keptCommit_complete (by decide +kernel)) rfl

/-- A kept handle in the typed view of a tree entry: the second use of the handle of
the mode is not possible without a panic, so a client that does without is safe. -/
example (grow : Nat → Nat) : run false grow (Handles.builder .treeEntry)
    [([], .beginMap), ([], .assembleEntry b!"mode"), ([0], .assignString b!"1"), ([], .assembleEntry b!"hash"),
     ([0], .assignOther), ([1], .assignLink .nil), ([], .finish)] ≠ none ∧
    run false grow (Handles.builder .treeEntry) keptEntry = none :=
  ⟨(fun h => by cases h), rfl⟩

end Verif.Props
