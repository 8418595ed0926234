import Verif.Proofs.ShownAll

/-!
# What a node makes of a new builder

`AssignNode` and `Build` on a new builder in memory, of either view and however Go
grows its arrays: exactly the value that the node gives, or the error, or the panic.
The other model, in which the assemblers hold values, says the same.
-/

namespace Verif.Props

open Spec Calls Handles

/-- A new builder given any node builds exactly the value that the node gives. -/
theorem assign_any (repr : Bool) (grow : Nat → Nat) (t : T) (n : Nd) (h : Filled n) :
    giveBuild repr grow t n = taken false t n := by
  have hs := sim_start t
  have hb : (builder t).mark = .absent := rfl
  rw [hb] at hs
  have hg := nd_got repr grow n h hs
  have hw : (builder t).obj.w.isNone = false := by cases t <;> rfl
  rw [hw] at hg
  unfold giveBuild
  have e : builder t = ⟨(builder t).mem, .absent, (builder t).obj⟩ := rfl
  rw [e]
  cases hr : taken false t n with
  | panic =>
    rw [hr] at hg
    rw [show assignNd repr grow n ⟨(builder t).mem, .absent, (builder t).obj⟩ = .panic from hg]
  | err x =>
    rw [hr] at hg
    obtain ⟨a, hg⟩ := hg
    rw [hg]
  | ok v =>
    rw [hr] at hg
    obtain ⟨μ', o', F', ph, s, f, h1, h2, h3, h4⟩ := hg
    rw [h1]
    have hc := taken_complete n h hr
    have := sim_build (whole_partial t v ph s f) h2 (by
      intro d u x hm
      simp only [List.mem_cons, List.not_mem_nil, or_false, Prod.mk.injEq, Call.assignSelf.injEq] at hm
      obtain ⟨_, rfl, rfl⟩ := hm
      exact hc)
    exact this

/-- All nodes of the value model, and all builders of either model: the same value, or
the same error, or a panic in both. -/
theorem memory_matches_values (repr : Bool) (grow : Nat → Nat) (pol : TreeAsm → Nat) (t : T) (n : Node) :
    ∃ d, Offers n d ∧
      giveBuild repr grow t d = ((protoOf t).assignNode pol n >>= fun v => .ok (valOf v)) := by
  obtain ⟨d, h⟩ := shows_total n
  exact ⟨d, h, by rw [assign_any repr grow t d (shows_whole h), proto_shown pol t h]⟩

/-- Whatever of its methods the node is taken for. -/
theorem memory_matches_any_showing (repr : Bool) (grow : Nat → Nat) (pol : TreeAsm → Nat) (t : T) (n : Node) (d : Nd)
    (h : Offers n d) : giveBuild repr grow t d = ((protoOf t).assignNode pol n >>= fun v => .ok (valOf v)) := by
  rw [assign_any repr grow t d (shows_whole h), proto_shown pol t h]

/-! ## Panics -/

mutual

theorem taken_panic : (n : Nd) → ∀ {b : Bool} {t : T}, taken b t n = .panic →
    (t = .commit ∧ ∃ k m, (k = b!"author" ∨ k = b!"committer") ∧ EntryOf k m n ∧ ByEntries m) ∨
    (b = true ∧ ∃ fs, t.shape = .struct fs)
  | .null, b, t, h => by cases h
  | .other, b, t, h => by cases h
  | .own u v n, b, t, h => by
    simp only [taken] at h
    split at h
    · cases h
    · rename_i hu
      rcases taken_panic n h with ⟨rfl, k, m, h1, h2, h3⟩ | h
      · exact Or.inl ⟨rfl, k, m, h1, .view hu h2, h3⟩
      · exact Or.inr h
  | .text x, b, t, h => by simp only [taken] at h; split at h <;> cases h
  | .link x, b, t, h => by simp only [taken] at h; split at h <;> cases h
  | .list ns, b, t, h => by
    simp only [taken] at h
    split at h
    · rename_i e he
      have : takenAll e ns = .panic := by
        revert h; cases takenAll e ns <;> intro h <;> first | rfl | cases h
      exact absurd this (takenAll_no_panic ns (by cases t <;> cases he <;> simp))
    · cases h
  | .map es, b, t, h => by
    simp only [taken] at h
    split at h
    · rename_i fs hf
      cases b with
      | true => exact Or.inr ⟨rfl, fs, hf⟩
      | false =>
        have : takenFields false fs es (fs.map fun _ => none) = .panic := by
          revert h; cases takenFields false fs es (fs.map fun _ => none) <;> intro h <;> first | rfl | cases h
        exact Or.inl (takenFields_panic es hf this)
    · cases h

theorem takenAll_no_panic : (ns : Nds) → ∀ {e : T}, e ≠ .commit → takenAll e ns ≠ .panic
  | .nil, e, he => by simp [takenAll]
  | .cons n r, e, he => by
    simp only [takenAll]
    intro h
    cases hn : taken false e n with
    | panic =>
      rcases taken_panic n hn with ⟨h, _⟩ | ⟨h, _⟩
      · exact he h
      · cases h
    | err x => rw [hn] at h; cases h
    | ok v =>
      rw [hn, Res.bind_ok] at h
      refine takenAll_no_panic r he ?_
      revert h
      cases takenAll e r <;> intro h <;> first | rfl | cases h

theorem takenFields_panic : (es : Ents) → ∀ {t : T} {fs : List FieldT} {l : List (Option Val)},
    t.shape = .struct fs → takenFields false fs es l = .panic →
    t = .commit ∧ ∃ k m, (k = b!"author" ∨ k = b!"committer") ∧ EntryOf k m (.map es) ∧ ByEntries m
  | .nil, t, fs, l, hf, h => by simp only [takenFields] at h; split at h <;> cases h
  | .cons k n r, t, fs, l, hf, h => by
    simp only [takenFields, Bool.false_eq_true, if_false] at h
    split at h
    · cases h
    · rename_i i hi
      split at h
      · rename_i fd hl hfd
        cases hn : taken (!fd.required && FieldT.byRef fd) fd.ty n with
        | err x => rw [hn] at h; cases h
        | ok v =>
          rw [hn, Res.bind_ok] at h
          obtain ⟨h1, k', m, h2, h3, h4⟩ := takenFields_panic r hf h
          exact ⟨h1, k', m, h2, .later h3, h4⟩
        | panic =>
          have hk : fd.name = k := by
            obtain ⟨hlt, h1, _⟩ := List.findIdx?_eq_some_iff_getElem.1 hi
            rw [List.getElem?_eq_getElem hlt] at hfd
            cases hfd
            simpa using h1
          rcases taken_panic n hn with ⟨hc, _⟩ | ⟨hb, _⟩
          · exfalso
            cases t <;> cases hf <;>
              (match i, hfd with
                | 0, hfd => cases hfd <;> cases hc
                | 1, hfd => cases hfd <;> cases hc
                | 2, hfd => cases hfd <;> cases hc
                | 3, hfd => cases hfd <;> cases hc
                | 4, hfd => cases hfd <;> cases hc
                | 5, hfd => cases hfd <;> cases hc
                | 6, hfd => cases hfd <;> cases hc
                | 7, hfd => cases hfd <;> cases hc
                | 8, hfd => cases hfd <;> cases hc
                | i + 9, hfd => cases hfd)
          · have key : t = .commit ∧ (fd.name = b!"author" ∨ fd.name = b!"committer") ∧ fd.ty = .person := by
              cases t <;> cases hf <;>
              (match i, hfd with
                | 0, hfd => cases hfd <;> cases hb
                | 1, hfd => cases hfd <;> cases hb
                | 2, hfd => cases hfd <;> cases hb
                | 3, hfd => cases hfd <;> first | exact ⟨rfl, Or.inl rfl, rfl⟩ | exact ⟨rfl, Or.inr rfl, rfl⟩ | cases hb
                | 4, hfd => cases hfd <;> first | exact ⟨rfl, Or.inl rfl, rfl⟩ | exact ⟨rfl, Or.inr rfl, rfl⟩ | cases hb
                | 5, hfd => cases hfd <;> cases hb
                | 6, hfd => cases hfd <;> cases hb
                | 7, hfd => cases hfd <;> cases hb
                | 8, hfd => cases hfd <;> cases hb
                | i + 9, hfd => cases hfd)
            obtain ⟨h1, h2, h3⟩ := key
            rw [hb, h3] at hn
            rw [hk] at h2
            exact ⟨h1, k, n, h2, .here, bare_panic n hn⟩
      · cases h

theorem bare_panic : (n : Nd) → taken true .person n = .panic → ByEntries n
  | .null, h => by cases h
  | .other, h => by cases h
  | .own u v n, h => by
    simp only [taken] at h
    split at h
    · cases h
    · rename_i hu
      exact ⟨hu, bare_panic n h⟩
  | .text x, h => by cases h
  | .link x, h => by cases h
  | .list ns, h => by cases h
  | .map .nil, h => by cases h
  | .map (.cons k n r), h => by
    simp only [taken, T.shape, takenFields] at h
    simp only [ByEntries]
    apply Classical.byContradiction
    intro hk
    have h1 : ¬ k = b!"date" := fun h => hk (Or.inl h)
    have h2 : ¬ k = b!"timezone" := fun h => hk (Or.inr (Or.inl h))
    have h3 : ¬ k = b!"email" := fun h => hk (Or.inr (Or.inr (Or.inl h)))
    have h4 : ¬ k = b!"name" := fun h => hk (Or.inr (Or.inr (Or.inr h)))
    simp [List.findIdx?_cons, eq_comm (b := k), h1, h2, h3, h4] at h

end

/-- A new builder given a node panics only if it builds a commit, and an author or
committer is given by its entries. -/
theorem assign_panics_only (repr : Bool) (grow : Nat → Nat) (t : T) (n : Nd) (h : Filled n)
    (hp : giveBuild repr grow t n = .panic) :
    t = .commit ∧ ∃ k m, (k = b!"author" ∨ k = b!"committer") ∧ EntryOf k m n ∧ ByEntries m := by
  rw [assign_any repr grow t n h] at hp
  rcases taken_panic n hp with h | ⟨h, _⟩
  · exact h
  · cases h

/-! ## Cases -/

/-- A tree entry given as a foreign map, its fields in the wrong order. -/
def entryNd : Nd := .map (.cons b!"hash" (.link .nil) (.cons b!"mode" (.text b!"100644") .nil))

example : Filled entryNd := ⟨trivial, trivial, trivial⟩
example : taken false .treeEntry entryNd = .ok (.struct [some (.text b!"100644"), some (.link .nil)]) := rfl
example : giveBuild true id .treeEntry entryNd = .ok (.struct [some (.text b!"100644"), some (.link .nil)]) :=
  (assign_any true id .treeEntry entryNd ⟨trivial, trivial, trivial⟩).trans rfl
example : giveBuild false id .treeEntry (.map (.cons b!"hash" (.link .nil) .nil)) = .err .missingField :=
  (assign_any false id .treeEntry (.map (.cons b!"hash" (.link .nil) .nil)) ⟨trivial, trivial⟩).trans rfl
example : giveBuild false id .person entryNd = .err .invalidKey :=
  (assign_any false id .person entryNd ⟨trivial, trivial, trivial⟩).trans rfl

/-- The author by entries: the panic. -/
def byEntriesNd : Nd := .map (.cons b!"author" (.map (.cons b!"name" (.text b!"A") .nil)) .nil)

example : giveBuild true id .commit byEntriesNd = .panic :=
  (assign_any true id .commit byEntriesNd ⟨⟨trivial, trivial⟩, trivial⟩).trans rfl
example : Offers (.map [(b!"mode", .own (.gpgSig b!"1"))])
    (.map (.cons b!"mode" (.own .gpgSig (.text b!"1") (.text b!"1")) .nil)) :=
  .plain (fun _ _ h => by cases h) (.map rfl rfl (.cons (.own rfl (.text rfl rfl)) .nil))

end Verif.Props
