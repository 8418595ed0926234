import Verif.Proofs.HandlesLift
import Verif.Props.Calls

/-! Series of calls, in memory. -/

namespace Verif.Handles

open Calls Spec

theorem sim_start (t : T) :
    Sim (builder t).mem (builder t).mark (builder t).obj (fresh t) (fun _ => False) :=
  sim_fresh .builder (idle_new (Nat.le_refl _)) (fun _ h => h.elim)
    ⟨⟨trivial, Nat.zero_lt_one, id⟩, repT_zero _ t _⟩

theorem current_length {a : Frame} {d : Nat} {c : Call} (h : a.callAt d c ≠ .noHandle) :
    (current d a).length = d := by
  induction d generalizing a with
  | zero => rfl
  | succ d ih =>
    unfold Frame.callAt at h
    unfold current
    cases hc : a.child with
    | none => rw [hc] at h; exact absurd rfl h
    | some ch =>
      rw [hc] at h
      simp only at h
      simp only [List.length_cons, Nat.add_right_cancel_iff]
      refine ih fun hn => ?_
      rw [hn] at h
      exact h rfl

theorem run_play {μ : Mem} {mk : Maybe} {o : Obj} {a a' : Frame} {F : Foot} {t : T}
    {pre cs good : List (Nat × Call)} (repr : Bool) (grow : Nat → Nat) (hp : Partial t a pre)
    (h : Sim μ mk o a F) (hc : ∀ d u v, (d, Call.assignSelf u v) ∈ cs → Complete u v)
    (hpl : play a cs = some (a', good)) :
    ∃ μ' mk' o' F' g, run repr grow ⟨μ, mk, o⟩ (onCurrent a cs) = some (⟨μ', mk', o'⟩, g) ∧
      depths g = good ∧ Sim μ' mk' o' a' F' := by
  induction cs generalizing μ mk o a F pre good with
  | nil => cases hpl; exact ⟨μ, mk, o, F, [], rfl, rfl, h⟩
  | cons x r ih =>
    obtain ⟨d, c⟩ := x
    have hc1 : ∀ u v, c = .assignSelf u v → Complete u v := fun u v hu => hc d u v (by simp [hu])
    have hc2 : ∀ d u v, (d, Call.assignSelf u v) ∈ r → Complete u v :=
      fun d u v hu => hc d u v (List.mem_cons_of_mem _ hu)
    have hst := sim_callAt repr grow hp h d c hc1
    have hinv := callAt_inv hp d c
    have hlen := current_length (a := a) (d := d) (c := c)
    simp only [play] at hpl
    simp only [onCurrent, run]
    cases ho : a.callAt d c with
    | ok b =>
      rw [ho] at hpl hst hlen
      simp only at hpl
      obtain ⟨μ1, mk1, o1, F1, h1, h2, -, -⟩ := hst
      cases hb : play b r with
      | none => rw [hb] at hpl; cases hpl
      | some q =>
        obtain ⟨b', g'⟩ := q
        rw [hb] at hpl
        cases hpl
        obtain ⟨μ2, mk2, o2, F2, g, h3, h4, h5⟩ := ih (hinv.1 b ho) h2 hc2 hb
        refine ⟨μ2, mk2, o2, F2, (current d a, c) :: g, ?_, ?_, h5⟩
        · rw [h1]
          simp only [h3, Option.map_some]
        · simp only [depths, List.map_cons] at h4 ⊢
          rw [h4, hlen (by simp)]
    | err e b =>
      rw [ho] at hpl hst
      simp only at hpl
      obtain ⟨μ1, mk1, o1, F1, h1, h2, -, -⟩ := hst
      obtain ⟨μ2, mk2, o2, F2, g, h3, h4, h5⟩ := ih (hinv.2 e b ho) h2 hc2 hpl
      refine ⟨μ2, mk2, o2, F2, g, ?_, h4, h5⟩
      rw [h1]
      simp only [h3]
    | panic => rw [ho] at hpl; cases hpl
    | noHandle => rw [ho] at hpl; cases hpl

/-- `Build` shows the same value. -/
theorem sim_build {μ : Mem} {mk : Maybe} {o : Obj} {a : Frame} {F : Foot} {t : T} {cs : List (Nat × Call)}
    (hp : Partial t a cs) (h : Sim μ mk o a F) (hc : ∀ d u v, (d, Call.assignSelf u v) ∈ cs → Complete u v) :
    build ⟨μ, mk, o⟩ = a.build := by
  have h1 := sim_head h
  have ht := partial_ty hp
  unfold build Frame.build
  simp only [h1.mark]
  by_cases hm : a.m = .value
  · rw [if_pos hm, if_pos hm]
    obtain ⟨q, hq, -, hr⟩ := sim_value hp h hm
    simp only [hq]
    congr 1
    rw [h1.ty]
    have hv := Props.makes_complete (partial_value hp hm) hc
    rw [← ht] at hv
    exact load_rep (Nat.le_refl _) hv hr
  · rw [if_neg hm, if_neg hm]

end Verif.Handles
