import Verif.Proofs.HandlesView
import Verif.Props.Handles

/-!
# Kept handles of a builder that has built

What calls on handles that a client has kept do to the value it has got from
`Build`.
-/

namespace Verif.Props

open Verif Spec Calls

/-! ## C76: the value that was built -/

/-- The types and views in which a value that was built stays as it is: the typed
view of all types, and the representation of those without structs. -/
def lasts : T → Bool → Bool
  | _, false => true
  | .person, true | .treeEntry, true | .tag, true | .tagList, true | .commit, true => false
  | _, true => true

theorem lasts_typed (t : T) : BuiltLasts t false := by
  intro grow cs good f a b g more g' v hc hp hr hb hm
  obtain ⟨μ, mk, o, F, g1, h1, h2, h3, h4, h5⟩ := Handles.neat_run grow (.idle t) (Handles.sim_start t)
    (Handles.neat_start (fr := false) t) (fun h => by
      unfold Handles.builder at h
      simp only at h
      unfold Handles.newObj at h
      cases h) (fun h => by cases h) hc (fun h => by cases h) hp
  replace h1 : run false grow (Handles.builder t) (onCurrent (fresh t) cs) = some (⟨μ, mk, o⟩, g1) := h1
  rw [hr] at h1
  cases h1
  have hi := play_inv (.idle t) hp
  have hcg : ∀ d u x, (d, Call.assignSelf u x) ∈ [] ++ good → Complete u x := by
    intro d u x hx
    exact hc d u x (play_sub hp _ hx)
  have hbf := Handles.sim_build hi h2 hcg
  rw [hb] at hbf
  have hv : f.m = .value ∧ v = f.w := by
    unfold Frame.build at hbf
    split at hbf
    · rename_i hm; cases hbf; exact ⟨hm, rfl⟩
    · cases hbf
  obtain ⟨hfm, rfl⟩ := hv
  obtain ⟨p, hs, hlt, hrep⟩ := Handles.neat_still hi h2 h3 h4 h5 (fun h => by cases h) hfm
  exact Handles.still_build (Handles.still_run grow hs hm) hlt (Handles.sim_foot h2)
    (makes_complete (partial_value hi hfm) hcg) hrep

theorem lasts_plain {t : T} (h : Handles.NoStruct (Handles.builder t).obj) : BuiltLasts t true := by
  intro grow cs good f a b g more g' v hc hp hr hb hm
  rw [Handles.run_repr h] at hr
  rw [Handles.run_repr (Handles.run_noStruct h hr)] at hm
  exact lasts_typed t grow cs good f a b g more g' v hc hp hr hb hm

theorem noStruct_of {t : T} (h : ∀ fs, t.shape ≠ .struct fs) (hp : ∀ u ∈ Handles.parts t, Handles.parts u = []) :
    Handles.NoStruct (Handles.builder t).obj := by
  have hs : ∀ n u, Handles.parts u = [] → Handles.NoStruct (Handles.newObj n u) := by
    intro n u hu
    have hk : ∀ {fs}, u.shape ≠ .struct fs := fun {fs} hf => Handles.parts_ne_struct hf hu
    unfold Handles.newObj
    refine .mk (fun fs => hk) fun i k hi => ?_
    cases n with
    | zero => simp at hi
    | succ n =>
      simp only at hi
      cases hsh : u.shape with
      | text => rw [hsh] at hi; simp at hi
      | link => rw [hsh] at hi; simp at hi
      | list e => exact absurd hu (Handles.parts_ne_list hsh)
      | struct fs => exact absurd hsh hk
  show Handles.NoStruct ((Handles.newObj (Handles.rank t) t).lend (some (0, [])) .builder)
  refine Handles.noStruct_lend _ _ ?_
  unfold Handles.newObj
  refine .mk h fun i k hi => ?_
  cases hr : Handles.rank t with
  | zero => rw [hr] at hi; simp at hi
  | succ n =>
    rw [hr] at hi
    simp only at hi
    cases hsh : t.shape with
    | text => rw [hsh] at hi; simp at hi
    | link => rw [hsh] at hi; simp at hi
    | list e =>
      rw [hsh] at hi
      cases i with
      | zero => cases hi; exact hs n e (hp e (by rw [Handles.parts_list hsh]; simp))
      | succ i => simp at hi
    | struct fs => exact absurd hsh (h fs)

/-- The text at a place in a value. -/
def textAt : List Nat → Val → Option Bytes
  | [], .text b => some b
  | i :: p, .struct l =>
    match l[i]? with
    | some (some v) => textAt p v
    | _ => none
  | i :: p, .list l =>
    match l[i]? with
    | some v => textAt p v
    | _ => none
  | _, _ => none

/-- The calls build a value, and `more` changes the text at `p` in it, in the
representation. -/
def changes (t : T) (cs : List (Nat × Call)) (more : List (List Nat × Call)) (p : List Nat) : Bool :=
  match play (fresh t) cs, run true id (Handles.builder t) (onCurrent (fresh t) cs) with
  | some _, some (a, _) =>
    match Handles.build a, run true id a more with
    | .ok v, some (b, _) =>
      match Handles.build b with
      | .ok v' => decide (textAt p v ≠ textAt p v')
      | _ => true
    | _, _ => false
  | _, _ => false

theorem not_lasts {t : T} {cs : List (Nat × Call)} {more : List (List Nat × Call)} {p : List Nat}
    (hc : ∀ d u x, (d, Call.assignSelf u x) ∈ cs → Complete u x) (h : changes t cs more p = true) :
    ¬ BuiltLasts t true := by
  intro hl
  unfold changes at h
  split at h
  · rename_i f a g hp hr
    split at h
    · rename_i v b g' hb hm
      rw [hl id cs f.2 f.1 a b g more g' v hc hp hr hb hm] at h
      simp at h
    · cases h
  · cases h

def onePerson : List (Nat × Call) :=
  [(0, .beginMap), (0, .assembleEntry b!"date"), (1, .assignString b!"1"), (0, .assembleEntry b!"timezone"),
   (1, .assignString b!"2"), (0, .assembleEntry b!"email"), (1, .assignString b!"3"), (0, .assembleEntry b!"name"),
   (1, .assignString b!"4"), (0, .finish)]

def onlyEntry : List (Nat × Call) :=
  [(0, .beginMap), (0, .assembleEntry b!"mode"), (1, .assignString b!"1"), (0, .assembleEntry b!"hash"),
   (1, .assignLink .nil), (0, .finish)]

def oneTag : List (Nat × Call) :=
  [(0, .beginMap), (0, .assembleEntry b!"object"), (1, .assignLink .nil), (0, .assembleEntry b!"type"),
   (1, .assignString b!"t"), (0, .assembleEntry b!"tag"), (1, .assignString b!"v1"), (0, .assembleEntry b!"tagger")] ++
   deeper onePerson ++ [(0, .assembleEntry b!"message"), (1, .assignString b!"m"), (0, .finish)]

def oneTagList : List (Nat × Call) :=
  [(0, .beginList 0), (0, .assembleValue)] ++ deeper oneTag ++ [(0, .finish)]

/-- A commit with a tag merged and an author. -/
def oneCommit : List (Nat × Call) :=
  [(0, .beginMap), (0, .assembleEntry b!"tree"), (1, .assignLink .nil), (0, .assembleEntry b!"parents"),
   (1, .beginList 0), (1, .finish), (0, .assembleKey), (0, .keyAssign b!"message"), (0, .assembleValue),
   (1, .assignString b!"m"), (0, .assembleEntry b!"author")] ++ deeper onePerson ++
   [(0, .assembleEntry b!"mergetag")] ++ deeper oneTagList ++
   [(0, .assembleEntry b!"other"), (1, .beginList 0), (1, .finish), (0, .finish)]

/-- In the representation the kept handle of the date still writes. -/
example : changes .person onePerson [([0], .assignString b!"9")] [0] = true := rfl

/-- Exactly for these types and views does a value that was built stay as it is. -/
theorem built_lasts (t : T) (repr : Bool) : BuiltLasts t repr ↔ lasts t repr = true := by
  cases repr with
  | false => exact ⟨fun _ => by cases t <;> rfl, fun _ => lasts_typed t⟩
  | true =>
    have good : Handles.NoStruct (Handles.builder t).obj → lasts t true = true →
        (BuiltLasts t true ↔ lasts t true = true) := fun h1 h2 => ⟨fun _ => h2, fun _ => lasts_plain h1⟩
    have bad : ¬ BuiltLasts t true → lasts t true = false → (BuiltLasts t true ↔ lasts t true = true) := by
      intro h1 h2
      rw [h2]
      exact ⟨fun h => absurd h h1, fun h => by cases h⟩
    cases t with
    | string => exact good (noStruct_of (by simp [T.shape]) (by decide)) rfl
    | gpgSig => exact good (noStruct_of (by simp [T.shape]) (by decide)) rfl
    | link => exact good (noStruct_of (by simp [T.shape]) (by decide)) rfl
    | treeLink => exact good (noStruct_of (by simp [T.shape]) (by decide)) rfl
    | commitLink => exact good (noStruct_of (by simp [T.shape]) (by decide)) rfl
    | linkList => exact good (noStruct_of (by simp [T.shape]) (by decide)) rfl
    | stringList => exact good (noStruct_of (by simp [T.shape]) (by decide)) rfl
    | person =>
      exact bad (not_lasts (cs := onePerson) (more := [([0], .assignString b!"9")]) (p := [0])
        (by intro d u x h; simp [onePerson] at h) (by decide +kernel)) rfl
    | treeEntry =>
      exact bad (not_lasts (cs := onlyEntry) (more := [([0], .assignString b!"9")]) (p := [0])
        (by intro d u x h; simp [onlyEntry] at h) (by decide +kernel)) rfl
    | tag =>
      exact bad (not_lasts (cs := oneTag) (more := [([1], .assignString b!"9")]) (p := [1])
        (by intro d u x h; simp [oneTag, onePerson, deeper] at h) (by decide +kernel)) rfl
    | tagList =>
      exact bad (not_lasts (cs := oneTagList) (more := [([0, 1], .assignString b!"9")]) (p := [0, 1])
        (by intro d u x h; simp [oneTagList, oneTag, onePerson, deeper] at h) (by decide +kernel)) rfl
    | commit =>
      exact bad (not_lasts (cs := oneCommit) (more := [([2], .assignString b!"9")]) (p := [2])
        (by intro d u x h; simp [oneCommit, oneTagList, oneTag, onePerson, deeper] at h) (by decide +kernel)) rfl

/-- Calls on handles kept from the commit: the assemblers of the merged tag, the
author, the message and the parents. Three of them return no error. -/
def moreCommit : List (List Nat × Call) :=
  [([7, 0], .beginMap), ([7, 0], .assembleEntry b!"type"), ([3], .assignOther), ([2], .assignNull), ([1], .beginList 0)]

example : ((run false id (Handles.builder .commit) (onCurrent (fresh .commit) oneCommit)).bind fun p =>
    run false id p.1 moreCommit).map (fun p => (p.2.length,
      match Handles.build p.1 with | .ok v => (textAt [7, 0, 1] v, textAt [3, 0] v) | _ => (none, none))) =
    some (3, some b!"t", some b!"1") := by decide +kernel

end Verif.Props
