import Verif.Proofs.Foreign
import Verif.Spec.Foreign
import Verif.Props.HandlesBuilt

/-!
# `AssignNode` on a builder that has built

What `AssignNode` with any node, on handles that a client has kept, does to the value
it has got from `Build`.
-/

namespace Verif.Props

open Verif Spec Calls

/-! ## C83: values that were built step by step -/

theorem still_deeds {n : Nat} {μ : Handles.Mem} {p : Handles.Ptr} {t : T} {a b : Handles.St} (grow : Nat → Nat)
    (h : Handles.Still true n μ p t a) {ds : List (List Nat × Handles.Deed)} (hr : runDeeds false grow a ds = some b) :
    Handles.Still true n μ p t b := by
  induction ds generalizing a with
  | nil => cases hr; exact h
  | cons x r ih =>
    obtain ⟨q, d⟩ := x
    have hs := Handles.still_deed grow h q d
    simp only [runDeeds] at hr
    cases ho : Handles.deedAt false grow q d a with
    | ok y => rw [ho] at hs hr; exact ih hs hr
    | err e y => rw [ho] at hs hr; exact ih hs hr
    | panic => rw [ho] at hr; cases hr
    | noHandle => rw [ho] at hr; cases hr

theorem scalar_parts {t : T} (h : Scalar t) : Handles.parts t = [] := by
  unfold Handles.parts
  rcases h with h | h <;> rw [h]

theorem deeds_repr {grow : Nat → Nat} {a : Handles.St} (h : Handles.NoStruct a.obj)
    (ds : List (List Nat × Handles.Deed)) : runDeeds true grow a ds = runDeeds false grow a ds := by
  induction ds generalizing a with
  | nil => rfl
  | cons x r ih =>
    obtain ⟨p, d⟩ := x
    obtain ⟨h1, h2⟩ := Handles.deed_repr (grow := grow) h p d
    simp only [runDeeds]
    rw [h1]
    cases ho : Handles.deedAt false grow p d a with
    | ok a' => rw [ho] at h2; simp only; rw [ih h2]
    | err e a' => rw [ho] at h2; simp only; rw [ih h2]
    | panic => rfl
    | noHandle => rfl

/-- In the typed view: with no structs or lists given whole while building, or for
scalars. -/
theorem settled_typed {P : T → Prop} {t : T} (hP : (∀ u, P u → Scalar u) ∨ Scalar t) : Settled P t false := by
  intro grow cs good f a b g more v hc hp hr hb hm
  have hc' : ∀ d u x, (d, Call.assignSelf u x) ∈ cs → Complete u x := fun d u x h => (hc d u x h).1
  have hno : (∀ u, P u → Scalar u) → Handles.NoWhole cs :=
    fun h d u x hx => scalar_parts (h u (hc d u x hx).2)
  have main : ∀ fr : Bool, (fr = true → Handles.NoWhole cs) → (fr = true ∨ Scalar t) → Handles.build b = .ok v := by
    intro fr hfr hor
    obtain ⟨μ, mk, o, F, g1, h1, h2, h3, h4, h5⟩ := Handles.neat_run (fr := fr) (pre := []) grow (.idle t)
      (Handles.sim_start t) (Handles.neat_start t) (fun h => by
        unfold Handles.builder at h
        simp only at h
        unfold Handles.newObj at h
        cases h) (fun h => by cases h) hc' (fun h => ⟨fun d u x hx => by simp at hx, hfr h⟩) hp
    replace h1 : run false grow (Handles.builder t) (onCurrent (fresh t) cs) = some (⟨μ, mk, o⟩, g1) := h1
    rw [hr] at h1
    cases h1
    have hi := play_inv (.idle t) hp
    have hcg : ∀ d u x, (d, Call.assignSelf u x) ∈ [] ++ good → Complete u x := by
      intro d u x hx
      exact hc' d u x (play_sub hp _ hx)
    have hbf := Handles.sim_build hi h2 hcg
    rw [hb] at hbf
    have hv : f.m = .value ∧ v = f.w := by
      unfold Frame.build at hbf
      split at hbf
      · rename_i hm; cases hbf; exact ⟨hm, rfl⟩
      · cases hbf
    obtain ⟨hfm, rfl⟩ := hv
    have hta := partial_ty hi
    have hch := Handles.partial_done hi hfm
    obtain ⟨p, hs, hlt, hrep⟩ := Handles.neat_still hi h2 h3 h4 h5
      (fun h d u x hx => hfr h d u x (play_sub hp _ hx)) hfm
    have hs' : Handles.Still true μ.next μ p t ⟨μ, mk, o⟩ := by
      cases fr with
      | true => exact hs
      | false =>
        have ht : Scalar t := hor.elim (fun h => by cases h) id
        refine ⟨hs.ty, hs.mark, hs.w, hs.mem, fun hn => absurd (by rw [hs.ty]; exact scalar_parts ht) hn, ?_⟩
        intro i k hk
        have := Handles.sim_kidTy h2 hch hk
        rw [hta, scalar_parts ht] at this
        simp at this
    exact Handles.still_build (still_deeds grow hs' hm) hlt (Handles.sim_foot h2)
      (makes_complete (partial_value hi hfm) hcg) hrep
  rcases hP with h | h
  · exact main true (fun _ => hno h) (Or.inl rfl)
  · exact main false (fun h => by cases h) (Or.inr h)

theorem settled_plain {P : T → Prop} {t : T} (hP : (∀ u, P u → Scalar u) ∨ Scalar t)
    (h : Handles.NoStruct (Handles.builder t).obj) : Settled P t true := by
  intro grow cs good f a b g more v hc hp hr hb hm
  rw [Handles.run_repr h] at hr
  rw [deeds_repr (Handles.run_noStruct h hr)] at hm
  exact settled_typed hP grow cs good f a b g more v hc hp hr hb hm

theorem deeds_of_calls {repr : Bool} {grow : Nat → Nat} {a b : Handles.St} {cs g : List (List Nat × Call)}
    (h : run repr grow a cs = some (b, g)) :
    runDeeds repr grow a (cs.map fun x => (x.1, Handles.Deed.call x.2)) = some b := by
  induction cs generalizing a g with
  | nil => cases h; rfl
  | cons x r ih =>
    obtain ⟨p, c⟩ := x
    simp only [run] at h
    simp only [List.map_cons, runDeeds, Handles.deedAt]
    cases ho : Handles.callAt repr grow p c a with
    | ok a' =>
      rw [ho] at h
      simp only at h ⊢
      cases h1 : run repr grow a' r with
      | none => rw [h1] at h; cases h
      | some y => rw [h1] at h; cases h; exact ih h1
    | err e a' => rw [ho] at h; simp only at h ⊢; exact ih h
    | panic => rw [ho] at h; cases h
    | noHandle => rw [ho] at h; cases h

theorem not_settled {P : T → Prop} {t : T} {cs : List (Nat × Call)} {more : List (List Nat × Call)} {p : List Nat}
    (hc : ∀ d u x, (d, Call.assignSelf u x) ∉ cs) (h : changes t cs more p = true) : ¬ Settled P t true := by
  intro hl
  unfold changes at h
  split at h
  · rename_i f a g hp hr
    split at h
    · rename_i v b g' hb hm
      rw [hl id cs f.2 f.1 a b g _ v (fun d u x hx => absurd hx (hc d u x)) hp hr hb (deeds_of_calls hm)] at h
      simp at h
    · cases h
  · cases h

/-- A value that was built, no struct or list of it given whole, does not change,
whatever nodes the client assigns to whatever handles; but in the representation of
structs and of what contains them it does. -/
theorem settled_steps (t : T) (repr : Bool) : Settled Scalar t repr ↔ lasts t repr = true := by
  cases repr with
  | false => exact ⟨fun _ => by cases t <;> rfl, fun _ => settled_typed (Or.inl fun _ h => h)⟩
  | true =>
    have good : Handles.NoStruct (Handles.builder t).obj → lasts t true = true →
        (Settled Scalar t true ↔ lasts t true = true) :=
      fun h1 h2 => ⟨fun _ => h2, fun _ => settled_plain (Or.inl fun _ h => h) h1⟩
    have bad : ¬ Settled Scalar t true → lasts t true = false → (Settled Scalar t true ↔ lasts t true = true) := by
      intro h1 h2
      rw [h2]
      exact ⟨fun h => absurd h h1, fun h => by cases h⟩
    cases t with
    | string => exact good (noStruct_of (by simp [T.shape]) (by decide)) rfl
    | gpgSig => exact good (noStruct_of (by simp [T.shape]) (by decide)) rfl
    | link => exact good (noStruct_of (by simp [T.shape]) (by decide)) rfl
    | treeLink => exact good (noStruct_of (by simp [T.shape]) (by decide)) rfl
    | commitLink => exact good (noStruct_of (by simp [T.shape]) (by decide)) rfl
    | linkList => exact good (noStruct_of (by simp [T.shape]) (by decide)) rfl
    | stringList => exact good (noStruct_of (by simp [T.shape]) (by decide)) rfl
    | person =>
      exact bad (not_settled (cs := onePerson) (more := [([0], .assignString b!"9")]) (p := [0])
        (by intro d u x h; simp [onePerson] at h) (by decide +kernel)) rfl
    | treeEntry =>
      exact bad (not_settled (cs := onlyEntry) (more := [([0], .assignString b!"9")]) (p := [0])
        (by intro d u x h; simp [onlyEntry] at h) (by decide +kernel)) rfl
    | tag =>
      exact bad (not_settled (cs := oneTag) (more := [([1], .assignString b!"9")]) (p := [1])
        (by intro d u x h; simp [oneTag, onePerson, deeper] at h) (by decide +kernel)) rfl
    | tagList =>
      exact bad (not_settled (cs := oneTagList) (more := [([0, 1], .assignString b!"9")]) (p := [0, 1])
        (by intro d u x h; simp [oneTagList, oneTag, onePerson, deeper] at h) (by decide +kernel)) rfl
    | commit =>
      exact bad (not_settled (cs := oneCommit) (more := [([2], .assignString b!"9")]) (p := [2])
        (by intro d u x h; simp [oneCommit, oneTagList, oneTag, onePerson, deeper] at h) (by decide +kernel)) rfl

/-- A person and a tag as maps. -/
def personMap : Handles.Nd :=
  .map (.cons b!"name" (.text b!"x") (.cons b!"email" (.text b!"y") (.cons b!"date" (.text b!"5")
    (.cons b!"timezone" (.text b!"6") .nil))))

def tagMap : Handles.Nd :=
  .map (.cons b!"type" (.text b!"blob") (.cons b!"tagger" personMap (.cons b!"object" (.link .nil)
    (.cons b!"message" (.text b!"z") (.cons b!"tag" (.text b!"v2") .nil)))))

/-- `AssignNode` of the map alone builds the tag. -/
example : (runDeeds false id (Handles.builder .tag) [([], .node tagMap)]).map (fun a =>
    match Handles.build a with | .ok v => (textAt [1] v, textAt [3, 1] v, textAt [4] v) | _ => (none, none, none)) =
    some (some b!"blob", some b!"6", some b!"z") := by decide +kernel

/-- Calls on handles kept from the commit: the assembler of merged tags is begun anew
and takes a whole tag, without error; the builder, the author, the message and the
parents refuse what they are given. -/
def moreNodes : List (List Nat × Handles.Deed) :=
  [([7, 0], .call .beginMap), ([7, 0], .node tagMap), ([], .node .other), ([3], .node (.list .nil)),
   ([2], .node personMap), ([1], .node (.text b!"p"))]

example : ((run false id (Handles.builder .commit) (onCurrent (fresh .commit) oneCommit)).bind fun p =>
    runDeeds false id p.1 moreNodes).map (fun a => (a.obj.kids.length,
      match Handles.build a with | .ok v => (textAt [7, 0, 1] v, textAt [3, 0] v) | _ => (none, none))) =
    some (9, some b!"t", some b!"1") := by decide +kernel

example : (match (run false id (Handles.builder .commit) (onCurrent (fresh .commit) oneCommit)).bind fun p =>
    runDeeds false id p.1 [([7, 0], .call .beginMap)] with
  | some a => match Handles.deedAt false id [7, 0] (.node tagMap) a with | .ok _ => true | _ => false
  | none => false) = true := by decide +kernel

/-! ## C84: values that were given whole -/

/-- The value that the calls make. -/
def madeBy (t : T) (cs : List (Nat × Call)) : Val :=
  match play (fresh t) cs with
  | some (f, _) => f.w
  | none => t.zero

/-- The calls make a value. -/
def makes (t : T) (cs : List (Nat × Call)) : Bool :=
  match play (fresh t) cs with
  | some (f, _) => f.m = .value
  | none => false

theorem madeBy_complete {t : T} {cs : List (Nat × Call)} (hc : ∀ d u x, (d, Call.assignSelf u x) ∉ cs)
    (h : makes t cs = true) : Complete t (madeBy t cs) := by
  unfold makes at h
  unfold madeBy
  cases hp : play (fresh t) cs with
  | none => rw [hp] at h; cases h
  | some q =>
    obtain ⟨f, good⟩ := q
    rw [hp] at h
    have hm : f.m = .value := of_decide_eq_true h
    exact makes_complete (partial_value (play_inv (.idle t) hp) hm) fun d u x hx =>
      absurd (play_sub hp _ hx) (hc d u x)

/-- How many elements a list has. -/
def count : Val → Nat
  | .list l => l.length
  | _ => 0

/-- The value is given whole and built, and then `AssignNode` of `n` on the builder
changes the text at `p` in it, or how many elements it has. -/
def spoils (t : T) (v : Val) (n : Handles.Nd) (p : List Nat) (repr : Bool) : Bool :=
  match play (fresh t) [(0, .assignSelf t v)],
    run repr id (Handles.builder t) (onCurrent (fresh t) [(0, .assignSelf t v)]) with
  | some _, some (a, _) =>
    match Handles.build a, runDeeds repr id a [([], .node n)] with
    | .ok v, some b =>
      match Handles.build b with
      | .ok v' => decide (textAt p v ≠ textAt p v' ∨ count v ≠ count v')
      | _ => true
    | _, _ => false
  | _, _ => false

/-- A person that was given whole, then a map with a date only: an error, but the
date is another. -/
example : spoils .person (madeBy .person onePerson) (.map (.cons b!"date" (.text b!"9") .nil)) [0] false = true := rfl

theorem not_whole {t : T} {v : Val} {n : Handles.Nd} {p : List Nat} {repr : Bool} (hv : Complete t v)
    (h : spoils t v n p repr = true) : ¬ Settled (fun _ => True) t repr := by
  intro hl
  unfold spoils at h
  split at h
  · rename_i f a g hp hr
    split at h
    · rename_i w b hb hm
      rw [hl id _ f.2 f.1 a b g _ w (fun d u x hx => by
        simp only [List.mem_singleton, Prod.mk.injEq, Call.assignSelf.injEq] at hx
        obtain ⟨-, rfl, rfl⟩ := hx
        exact ⟨hv, trivial⟩) hp hr hb hm] at h
      simp at h
    · cases h
  · cases h

/-- A list with an element that no assembler takes. -/
def badList : Handles.Nd := .list (.cons .other .nil)

/-- If structs and lists may be given whole, then what `Build` returns can change
through `AssignNode` alone, for all types but the scalars, in both views. -/
theorem settled_whole (t : T) (repr : Bool) : Settled (fun _ => True) t repr ↔ Scalar t := by
  have hsc : Scalar t → Settled (fun _ => True) t repr := by
    intro h
    cases repr with
    | false => exact settled_typed (Or.inr h)
    | true =>
      refine settled_plain (Or.inr h) (noStruct_of ?_ ?_)
      · intro fs hs
        rcases h with h | h <;> · rw [h] at hs; cases hs
      · rw [scalar_parts h]
        intro u hu
        cases hu
  refine ⟨fun h => ?_, hsc⟩
  have bad : ∀ (cs : List (Nat × Call)) (n : Handles.Nd) (p : List Nat), (∀ d u x, (d, Call.assignSelf u x) ∉ cs) →
      makes t cs = true → (∀ repr, spoils t (madeBy t cs) n p repr = true) → Scalar t := by
    intro cs n p hc hm hs
    exact absurd h (not_whole (madeBy_complete hc hm) (hs repr))
  cases t with
  | string => exact Or.inl rfl
  | gpgSig => exact Or.inl rfl
  | link => exact Or.inr rfl
  | treeLink => exact Or.inr rfl
  | commitLink => exact Or.inr rfl
  | linkList =>
    exact bad [(0, .beginList 0), (0, .finish)] badList [] (by intro d u x h; simp at h) (by decide +kernel) (by decide +kernel)
  | stringList =>
    exact bad [(0, .beginList 0), (0, .finish)] badList [] (by intro d u x h; simp at h) (by decide +kernel) (by decide +kernel)
  | tagList =>
    exact bad [(0, .beginList 0), (0, .finish)] badList [] (by intro d u x h; simp at h) (by decide +kernel) (by decide +kernel)
  | person =>
    exact bad onePerson (.map (.cons b!"date" (.text b!"9") .nil)) [0] (by intro d u x h; simp [onePerson] at h)
      (by decide +kernel) (by decide +kernel)
  | treeEntry =>
    exact bad onlyEntry (.map (.cons b!"mode" (.text b!"9") .nil)) [0] (by intro d u x h; simp [onlyEntry] at h)
      (by decide +kernel) (by decide +kernel)
  | tag =>
    exact bad oneTag (.map (.cons b!"type" (.text b!"9") .nil)) [1]
      (by intro d u x h; simp [oneTag, onePerson, deeper] at h) (by decide +kernel) (by decide +kernel)
  | commit =>
    exact bad oneCommit (.map (.cons b!"message" (.text b!"9") .nil)) [2]
      (by intro d u x h; simp [oneCommit, oneTagList, oneTag, onePerson, deeper] at h) (by decide +kernel)
      (by decide +kernel)

end Verif.Props
