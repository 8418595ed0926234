import Verif.Proofs.TreeHandles
import Verif.Props.HandlesBuilt

/-!
# Handles of a tree builder: C78, C79, C80
-/

namespace Verif.Props

open Verif Spec Calls Handles

/-! ## C78: the handle that is to be used -/

/-- A call in memory has the outcome that `Verif.Model.TreeCalls` says. -/
def SameTreeOutcome (r : TreeRes) (q : TreeOut) : Prop :=
  match q with
  | .ok _ => ∃ s, r = .ok s
  | .err e _ => ∃ s, r = .err e s
  | .panic => r = .panic
  | .noHandle => True

/-- A client that always uses the handle it is to use: the same calls return an error,
`Build` shows the rows that they spell out, a name is looked up in the last row that
has it, and any further call has the same outcome. -/
theorem tree_current_handles (repr : Bool) (grow : Nat → Nat) (pol : TreeAsm → Nat) (hint : Int)
    {cs good : List (Nat × Call)} {a : TreeFrame} (hc : ∀ d u x, (d, Call.assignSelf u x) ∈ cs → Complete u x)
    (hp : playTree pol hint .fresh cs = some (a, good)) :
    ∃ s g, runTree repr grow hint .fresh (onCurrentTree pol hint .fresh cs) = some (s, g) ∧ depths g = good ∧
      (∀ t, a.build = .ok t → ∃ t', s.build = .ok t' ∧ t'.t = t.t ∧ MakesTree t'.t good ∧
        ∀ k, treeLookup t' k = (lastFor t'.t k).elim (.err .notExists) .ok) ∧
      (a.build = .panic → s.build = .panic) ∧
      ∀ d c, (∀ u x, c = .assignSelf u x → Complete u x) →
        SameTreeOutcome (s.callAt repr grow hint (treeCurrent d a) c) (a.callAt pol hint d c) := by
  obtain ⟨s, g, h1, h2, h3⟩ := runTree_play (repr := repr) grow pol hint .idle hc hp
  refine ⟨s, g, h1, h2, fun t hb => ?_, fun hb => ?_, fun d c hw => ?_⟩
  · have h := Handles.tree_build h3
    rw [hb] at h
    obtain ⟨t', h4, h5, h6⟩ := h
    obtain ⟨h7, h8⟩ := tree_sound pol hint hc hp hb
    rw [← h5] at h7
    exact ⟨t', h4, h5, h7, fun k => by rw [h6, h8, h5]⟩
  · have h := Handles.tree_build h3
    rw [hb] at h
    exact h
  · have h := tree_callAt grow pol hint h3 d c hw
    unfold SameTreeOutcome
    cases ho : a.callAt pol hint d c with
    | ok a' => rw [ho] at h; obtain ⟨_, he, -⟩ := h; exact ⟨_, he⟩
    | err e a' => rw [ho] at h; obtain ⟨_, he, -⟩ := h; exact ⟨_, he⟩
    | panic => rw [ho] at h; exact h
    | noHandle => exact trivial

example : (runTree true id 5 .fresh (onCurrentTree (fun _ => 0) 5 .fresh someTree)).bind (fun p =>
    match p.1.build with | .ok t => some (p.2.length, t.t) | _ => none) =
    some (13, [(b!"a", ⟨b!"40000", .nil⟩), (b!"a", ⟨b!"100644", .nil⟩)]) := by decide +kernel

/-! ## C79: the tree that was built -/

theorem treeLasts_typed : TreeLasts false := by
  intro grow hint cs good f s s' g more g' t hc hp hr hb hm
  obtain ⟨s1, g1, h1, -, h3⟩ := runTree_play (repr := false) grow (fun _ => 0) hint .idle hc hp
  rw [hr] at h1
  cases h1
  have hv : s.mark = .value := by
    unfold TreeSt.build at hb
    split at hb
    · assumption
    · cases hb
  cases h3 with
  | idle => cases hv
  | rest _ _ _ _ _ h => rw [h.mark] at hv; cases hv
  | key _ _ _ _ _ _ _ _ _ _ _ _ _ h => rw [h.mark] at hv; cases hv
  | keyed _ _ _ _ _ _ _ _ _ _ h => rw [h.mark] at hv; cases hv
  | mid _ _ _ _ _ _ _ h => rw [h.mark] at hv; cases hv
  | @done _ _ rows _ _ _ _ _ _ h7 h8 h9 =>
    have h0 : TreeStill s.mem.next s s :=
      ⟨h8, h7, h9.kw, rfl, rfl, keeps_refl (Nat.le_refl _), h9.off rfl _⟩
    have e0 := still_treeBuild h0 h9
    rw [hb] at e0
    rw [still_treeBuild (still_treeRun grow hint h0 hm) h9, ← e0]

/-- Two entries, the first of them field by field. -/
def twoEntries : List (Nat × Call) :=
  [(0, .beginMap), (0, .assembleEntry b!"a"), (1, .beginMap), (1, .assembleEntry b!"mode"),
   (2, .assignString b!"100644"), (1, .assembleEntry b!"hash"), (2, .assignLink .nil), (1, .finish),
   (0, .assembleEntry b!"b"), (1, .assignSelf .treeEntry (treeEntryVal ⟨b!"40000", .nil⟩)), (0, .finish)]

theorem entry_complete (e : TreeEntry) : Complete .treeEntry (treeEntryVal e) := by
  refine .struct rfl _ rfl ?_ ?_
  · intro i fd hf hr
    match i with
    | 0 => exact ⟨_, rfl⟩
    | 1 => exact ⟨_, rfl⟩
    | i + 2 => cases hf
  · intro i fd v hf hv
    match i with
    | 0 => cases hf; cases hv; exact .text rfl _
    | 1 => cases hf; cases hv; exact .link rfl _
    | i + 2 => cases hf

theorem twoEntries_complete : ∀ d u x, (d, Call.assignSelf u x) ∈ twoEntries → Complete u x := by
  intro d u x h
  simp only [twoEntries, List.mem_cons, Prod.mk.injEq, reduceCtorEq, and_false, false_or, List.not_mem_nil, or_false,
    Call.assignSelf.injEq] at h
  obtain ⟨-, rfl, rfl⟩ := h
  exact entry_complete _

/-- What a series of calls leaves to look at: the modes in the rows, and the mode that
looking up shows for each of the names. -/
def shows (s : TreeSt) : Option (List (Bytes × Bytes × Option Bytes)) :=
  match s.build with
  | .ok t => some (t.t.map fun r => (r.1, r.2.mode, match treeLookup t r.1 with | .ok e => some e.mode | _ => none))
  | _ => none

/-- In the representation, the kept handle of a mode changes the tree that was built,
for those who look it up but not for those who iterate. -/
theorem tree_changes : ∃ s g s' g',
    runTree true id 0 .fresh (onCurrentTree (fun _ => 0) 0 .fresh twoEntries) = some (s, g) ∧
    runTree true id 0 s [([0, 0], .assignString b!"9")] = some (s', g') ∧
    shows s = some [(b!"a", b!"100644", some b!"100644"), (b!"b", b!"40000", some b!"40000")] ∧
    shows s' = some [(b!"a", b!"100644", some b!"9"), (b!"b", b!"40000", some b!"40000")] := by
  have h1 : ((runTree true id 0 .fresh (onCurrentTree (fun _ => 0) 0 .fresh twoEntries)).map fun p => shows p.1) =
      some (some [(b!"a", b!"100644", some b!"100644"), (b!"b", b!"40000", some b!"40000")]) := by decide +kernel
  have h2 : ((runTree true id 0 .fresh (onCurrentTree (fun _ => 0) 0 .fresh twoEntries)).bind fun p =>
      (runTree true id 0 p.1 [([0, 0], .assignString b!"9")]).map fun q => shows q.1) =
      some (some [(b!"a", b!"100644", some b!"9"), (b!"b", b!"40000", some b!"40000")]) := by decide +kernel
  cases hr : runTree true id 0 .fresh (onCurrentTree (fun _ => 0) 0 .fresh twoEntries) with
  | none => rw [hr] at h1; cases h1
  | some p =>
    obtain ⟨s, g⟩ := p
    rw [hr] at h1 h2
    dsimp only [Option.bind_some, Option.map_some] at h1 h2
    cases hm : runTree true id 0 s [([0, 0], .assignString b!"9")] with
    | none => rw [hm] at h2; cases h2
    | some q =>
      obtain ⟨s', g'⟩ := q
      rw [hm] at h2
      exact ⟨s, g, s', g', rfl, hm, Option.some.inj h1, Option.some.inj h2⟩

/-- A tree that was built by always using the handle that is to be used stays as it is
in the typed view, and only there. -/
theorem tree_lasts (repr : Bool) : TreeLasts repr ↔ repr = false := by
  cases repr with
  | false => exact ⟨fun _ => rfl, fun _ => treeLasts_typed⟩
  | true =>
    refine ⟨fun h => ?_, (fun h => by cases h)⟩
    obtain ⟨s, g, s', g', h1, h2, h3, h4⟩ := tree_changes
    cases hp : playTree (fun _ => 0) 0 .fresh twoEntries with
    | none =>
      have : (playTree (fun _ => 0) 0 .fresh twoEntries).isSome = true := by decide +kernel
      rw [hp] at this
      cases this
    | some p =>
      cases hb : s.build with
      | ok t =>
        have := h id 0 twoEntries p.2 p.1 s s' g _ g' t twoEntries_complete hp h1 hb h2
        unfold shows at h3 h4
        rw [hb] at h3
        rw [this] at h4
        rw [h3] at h4
        exact absurd h4 (by decide)
      | err e => unfold shows at h3; rw [hb] at h3; cases h3
      | panic => unfold shows at h3; rw [hb] at h3; cases h3

/-- Typed, the kept entry assembler still takes an entry after `Build`, which is not
that of the tree. -/
example : ((runTree false id 0 .fresh (onCurrentTree (fun _ => 0) 0 .fresh twoEntries)).bind fun p =>
    (runTree false id 0 p.1 [([0], .beginMap), ([0], .assembleEntry b!"mode"), ([0, 0], .assignString b!"9")]).map
      fun q => shows q.1) =
    some (some [(b!"a", b!"100644", some b!"100644"), (b!"b", b!"40000", some b!"40000")]) := by decide +kernel

/-! ## C80: handles that were kept -/

/-- The entry assembler kept from the first entry answers for the key of the second. -/
def keptValue : List (List Nat × Call) :=
  [([], .beginMap), ([], .assembleEntry b!"a"), ([0], .assignSelf .treeEntry (treeEntryVal ⟨b!"1", .nil⟩)),
   ([], .assembleKey), ([0], .assignSelf .treeEntry (treeEntryVal ⟨b!"2", .nil⟩)), ([], .assembleValue),
   ([0], .assignSelf .treeEntry (treeEntryVal ⟨b!"3", .nil⟩)), ([], .finish)]

/-- The map assembler kept from the first entry takes a field of the second one, which
is then given whole; the handle of the field still writes when the third is begun. -/
def keptField : List (List Nat × Call) :=
  [([], .beginMap), ([], .assembleEntry b!"a"), ([0], .beginMap), ([0], .assembleEntry b!"mode"),
   ([0, 0], .assignString b!"1"), ([0], .assembleEntry b!"hash"), ([0, 1], .assignLink .nil), ([0], .finish),
   ([], .assembleEntry b!"b"), ([0], .assembleEntry b!"mode"),
   ([0], .assignSelf .treeEntry (treeEntryVal ⟨b!"2", .nil⟩)), ([], .assembleEntry b!"c"),
   ([0, 0], .assignString b!"9"), ([0], .assignSelf .treeEntry (treeEntryVal ⟨b!"3", .nil⟩)), ([], .finish)]

theorem keptValue_complete : GivesComplete keptValue := by
  intro p u x h
  simp only [keptValue, List.mem_cons, Prod.mk.injEq, reduceCtorEq, and_false, false_or, List.not_mem_nil, or_false,
    Call.assignSelf.injEq] at h
  rcases h with ⟨-, rfl, rfl⟩ | ⟨-, rfl, rfl⟩ | ⟨-, rfl, rfl⟩ <;> exact entry_complete _

theorem keptField_complete : GivesComplete keptField := by
  intro p u x h
  simp only [keptField, List.mem_cons, Prod.mk.injEq, reduceCtorEq, and_false, false_or, List.not_mem_nil, or_false,
    Call.assignSelf.injEq] at h
  rcases h with ⟨-, rfl, rfl⟩ | ⟨-, rfl, rfl⟩ <;> exact entry_complete _

/-- The calls end in rows other than those that they spell out, if they do. -/
def confusesTree (repr : Bool) (cs : List (List Nat × Call)) : Bool :=
  match runTree repr id 0 .fresh cs with
  | none => false
  | some (s, good) =>
    match s.build with
    | .ok t =>
      match playTree (fun _ => 0) 0 .fresh (depths good) with
      | none => true
      | some (b, _) =>
        match b.build with
        | .ok t' => decide (t.t.map (fun r => (r.1, r.2.mode)) ≠ t'.t.map fun r => (r.1, r.2.mode))
        | _ => true
    | _ => false

theorem runs_all {repr : Bool} {cs : List (List Nat × Call)} {x : Option (List (Bytes × Bytes × Option Bytes))}
    (h1 : ((runTree repr id 0 .fresh cs).map fun p => shows p.1) = some x)
    (h2 : ((runTree repr id 0 .fresh cs).map fun p => p.2.length) = some cs.length) :
    ∃ s g, runTree repr id 0 .fresh cs = some (s, g) ∧ g.length = cs.length ∧ shows s = x := by
  cases hr : runTree repr id 0 .fresh cs with
  | none => rw [hr] at h1; cases h1
  | some p =>
    rw [hr] at h1 h2
    exact ⟨p.1, p.2, rfl, Option.some.inj h2, Option.some.inj h1⟩

/-- In both views, kept handles confuse a tree builder. -/
theorem tree_unsafe (repr : Bool) : ¬ TreeHandlesSafe repr := by
  intro hs
  have h : confusesTree repr keptValue = true := by cases repr <;> decide +kernel
  unfold confusesTree at h
  split at h
  · cases h
  · rename_i a good hr
    split at h
    · rename_i t hb
      obtain ⟨b, t', hp, hb', he⟩ := tree_complete (fun _ => 0) 0 (hs id 0 keptValue good a t keptValue_complete hr hb)
      rw [hp] at h
      simp only [hb', he, ne_eq, not_true_eq_false, decide_false] at h
      cases h
    · cases h

/-- In both views, a row can get a name that no call has given. -/
theorem tree_kept_name (repr : Bool) : GivesComplete keptValue ∧ ∃ s g, runTree repr id 0 .fresh keptValue = some (s, g) ∧
    g.length = keptValue.length ∧ shows s = some [(b!"a", b!"1", some b!"1"), (b!"", b!"3", some b!"3")] := by
  refine ⟨keptValue_complete, ?_⟩
  cases repr <;> exact runs_all (by decide +kernel) (by decide +kernel)

/-- In both views, a tree can be built in which looking up a name shows another entry
than the only row that has it. -/
theorem tree_kept_split (repr : Bool) : GivesComplete keptField ∧ ∃ s g, runTree repr id 0 .fresh keptField = some (s, g) ∧
    g.length = keptField.length ∧
    shows s = some [(b!"a", b!"1", some b!"1"), (b!"b", b!"2", some b!"9"), (b!"c", b!"3", some b!"3")] := by
  refine ⟨keptField_complete, ?_⟩
  cases repr <;> exact runs_all (by decide +kernel) (by decide +kernel)

end Verif.Props
