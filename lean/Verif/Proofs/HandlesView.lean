import Verif.Proofs.HandlesNeat

/-! The two views differ only for structs. -/

namespace Verif.Handles

open Calls Spec

/-- No struct among an assembler and those it contains. -/
inductive NoStruct : Obj → Prop where
  | mk {t : T} {w : Option Ptr} {m : MarkAt} {g b : Bool} {ph : MaState} {s f : Nat} {cm : Maybe} {kids : List Obj} :
      (∀ fs, t.shape ≠ .struct fs) → (∀ (i : Nat) (k : Obj), kids[i]? = some k → NoStruct k) →
      NoStruct (.mk t w m g b ph s f cm kids)

theorem noStruct_iff {t : T} {w : Option Ptr} {m : MarkAt} {g b : Bool} {ph : MaState} {s f : Nat} {cm : Maybe}
    {kids : List Obj} : NoStruct (.mk t w m g b ph s f cm kids) ↔ (∀ fs, t.shape ≠ .struct fs) ∧
      ∀ (i : Nat) (k : Obj), kids[i]? = some k → NoStruct k :=
  ⟨fun h => by cases h with | mk h1 h2 => exact ⟨h1, h2⟩, fun h => .mk h.1 h.2⟩

theorem noStruct_ty {o : Obj} (h : NoStruct o) (fs : List FieldT) : o.ty.shape ≠ .struct fs := by
  cases h with
  | mk h1 => exact h1 fs

theorem noStruct_reset {o : Obj} (h : NoStruct o) : NoStruct o.reset := by
  induction h with
  | @mk t w m g b ph s f cm kids h1 h2 ih =>
    have hk : ∀ (i : Nat) (k : Obj), (Obj.resetAll kids)[i]? = some k → NoStruct k := by
      intro i k hk
      rw [resetAll_get] at hk
      cases h0 : kids[i]? with
      | none => rw [h0] at hk; cases hk
      | some k0 => rw [h0] at hk; cases hk; exact ih i k0 h0
    unfold Obj.reset
    split
    · exact .mk h1 hk
    · exact .mk h1 hk
    · exact .mk h1 h2

theorem noStruct_modify {φ : Obj → Obj} {i : Nat} {kids : List Obj} (hφ : ∀ k, NoStruct k → NoStruct (φ k))
    (h : ∀ (i : Nat) (k : Obj), kids[i]? = some k → NoStruct k) (j : Nat) (k : Obj)
    (hk : (modifyKid φ i kids)[j]? = some k) : NoStruct k := by
  rw [modifyKid_get] at hk
  split at hk
  · cases h0 : kids[j]? with
    | none => rw [h0] at hk; cases hk
    | some k0 => rw [h0] at hk; cases hk; exact hφ k0 (h j k0 h0)
  · exact h j k hk

theorem noStruct_park {o : Obj} (h : NoStruct o) : NoStruct o.park := by
  cases h with
  | mk h1 h2 => exact .mk h1 h2

theorem noStruct_lend {o : Obj} (w : Option Ptr) (m : MarkAt) (h : NoStruct o) : NoStruct (o.lend w m) := by
  cases h with
  | mk h1 h2 => exact .mk h1 h2

theorem noStruct_ready {repr : Bool} {a a' : St} (h : NoStruct a.obj) (hr : ready repr a = some a') :
    NoStruct a'.obj := by
  obtain ⟨μ, mk, t, w, m, g, b, ph, s, f, cm, kids⟩ := a
  replace h : NoStruct (.mk t w m g b ph s f cm kids) := h
  rw [noStruct_iff] at h
  unfold ready at hr
  cases ph with
  | initial => cases hr; exact .mk h.1 h.2
  | midKey => cases hr
  | expectValue => cases hr
  | finished => cases hr
  | midValue =>
    simp only [Obj.ph, tidy] at hr
    split at hr
    · rename_i fs hs; exact absurd hs (h.1 fs)
    · split at hr
      · cases hr
        exact .mk h.1 (noStruct_modify (fun k hk => noStruct_reset (noStruct_park hk)) h.2)
      · cases hr
    · cases hr

theorem ready_repr {a : St} (h : ∀ fs, a.obj.ty.shape ≠ .struct fs) : ready true a = ready false a := by
  obtain ⟨μ, mk, t, w, m, g, b, ph, s, f, cm, kids⟩ := a
  unfold ready
  cases ph with
  | midValue =>
    simp only [Obj.ph, tidy]
    split
    · rename_i fs hs; exact absurd hs (h fs)
    · rfl
    · rfl
  | _ => rfl

theorem call_repr {grow : Nat → Nat} {a : St} (h : NoStruct a.obj) (c : Call) :
    call true grow a c = call false grow a c := by
  have hn := noStruct_ty h
  unfold call
  cases c <;> try rfl
  · simp only [assembleEntry, hn]
  · simp only [assembleKey, hn]
  · simp only [assembleValue]
    rw [ready_repr hn]
  · simp only [finish]
    rw [ready_repr hn]

theorem noStruct_raw {repr : Bool} {grow : Nat → Nat} {a : St} (h : NoStruct a.obj) (c : Call) :
    After (rawCall repr grow a c) fun a' => NoStruct a'.obj := by
  have hn := noStruct_ty h
  unfold rawCall
  cases c with
  | beginMap =>
    obtain ⟨μ, mk, t, w, m, g, b, ph, s, f, cm, kids⟩ := a
    simp only [beginMap]
    split
    · rename_i fs hs; exact absurd hs (hn fs)
    · exact h
  | beginList n =>
    obtain ⟨μ, mk, t, w, m, g, b, ph, s, f, cm, kids⟩ := a
    have hi := noStruct_iff.1 h
    simp only [beginList]
    (repeat' split) <;> first | exact trivial | exact noStruct_iff.2 hi
  | assignNull =>
    simp only [assignNull]
    split
    · exact h
    · exact trivial
  | assignOther => exact h
  | assignString x =>
    obtain ⟨μ, mk, t, w, m, g, b, ph, s, f, cm, kids⟩ := a
    have hi := noStruct_iff.1 h
    simp only [assignString]
    (repeat' split) <;> first | exact trivial | exact noStruct_iff.2 hi
  | assignLink x =>
    obtain ⟨μ, mk, t, w, m, g, b, ph, s, f, cm, kids⟩ := a
    have hi := noStruct_iff.1 h
    simp only [assignLink]
    (repeat' split) <;> first | exact trivial | exact noStruct_iff.2 hi
  | assignSelf u v =>
    obtain ⟨μ, mk, t, w, m, g, b, ph, s, f, cm, kids⟩ := a
    have hi := noStruct_iff.1 h
    simp only [assignSelf]
    (repeat' split) <;> first | exact trivial | exact noStruct_iff.2 hi
  | assembleEntry x =>
    simp only [assembleEntry, hn]
    exact trivial
  | assembleKey =>
    simp only [assembleKey, hn]
    exact trivial
  | keyAssign x =>
    obtain ⟨μ, mk, t, w, m, g, b, ph, s, f, cm, kids⟩ := a
    simp only [keyAssign]
    split
    · rename_i fs hs; exact absurd hs (hn fs)
    · exact trivial
  | keyAssignOther =>
    simp only [keyAssignOther, hn]
    exact trivial
  | assembleValue =>
    simp only [assembleValue]
    split
    · rename_i fs hs; exact absurd hs (hn fs)
    · cases hr : ready repr a with
      | none => exact trivial
      | some a' =>
        have h' := noStruct_ready h hr
        obtain ⟨μ, mk, t, w, m, g, b, ph, s, f, cm, kids⟩ := a'
        have hi := noStruct_iff.1 h'
        simp only
        split
        · exact trivial
        · exact .mk hi.1 (noStruct_modify (fun k hk => noStruct_lend _ _ hk) hi.2)
    · exact trivial
  | finish =>
    simp only [finish]
    split
    · rename_i fs hs; exact absurd hs (hn fs)
    · cases hr : ready repr a with
      | none => exact trivial
      | some a' =>
        have h' := noStruct_ready h hr
        obtain ⟨μ, mk, t, w, m, g, b, ph, s, f, cm, kids⟩ := a'
        have hi := noStruct_iff.1 h'
        exact noStruct_iff.2 hi
    · exact trivial

theorem noStruct_call {repr : Bool} {grow : Nat → Nat} {a : St} (h : NoStruct a.obj) (c : Call) :
    After (call repr grow a c) fun a' => NoStruct a'.obj :=
  after_call (noStruct_raw h c)

theorem noStruct_kid {a k : St} {i : Nat} (h : NoStruct a.obj) (hk : kid a i = some k) : NoStruct k.obj := by
  have hkk : a.obj.kids[i]? = some k.obj := by
    unfold kid at hk
    cases h0 : a.obj.kids[i]? with
    | none => rw [h0] at hk; cases hk
    | some k0 => rw [h0] at hk; cases hk; rfl
  cases hao : a.obj with
  | mk t w m g b ph s f cm kids =>
    rw [hao] at h hkk
    exact (noStruct_iff.1 h).2 i _ hkk

theorem noStruct_putBack {a k' : St} {i : Nat} (h : NoStruct a.obj) (hk' : NoStruct k'.obj) :
    NoStruct (putBack a i k').obj := by
  obtain ⟨μ, mk, t, w, m, g, b, ph, s, f, cm, kids⟩ := a
  have hi := noStruct_iff.1 h
  have hs : ∀ (j : Nat) (x : Obj), (kids.set i k'.obj)[j]? = some x → NoStruct x := by
    intro j x hx
    rw [List.getElem?_set] at hx
    split at hx
    · split at hx
      · cases hx; exact hk'
      · cases hx
    · exact hi.2 j x hx
  unfold putBack
  simp only
  split
  · rename_i e _; cases e; exact .mk hi.1 hs
  · rename_i e _; cases e; exact .mk hi.1 hs

theorem noStruct_path {act act' : St → Out} (he : ∀ a, NoStruct a.obj → act' a = act a)
    (hk : ∀ a, NoStruct a.obj → After (act a) fun a' => NoStruct a'.obj) {a : St} (h : NoStruct a.obj) (p : List Nat) :
    atPath act' p a = atPath act p a ∧ After (atPath act p a) fun a' => NoStruct a'.obj := by
  induction p generalizing a with
  | nil => exact ⟨he a h, hk a h⟩
  | cons i p ih =>
    unfold atPath
    cases hka : kid a i with
    | none => exact ⟨rfl, trivial⟩
    | some k =>
      obtain ⟨h1, h2⟩ := ih (noStruct_kid h hka)
      simp only
      rw [h1]
      refine ⟨rfl, ?_⟩
      cases ho : atPath act p k with
      | ok k' => rw [ho] at h2; exact noStruct_putBack h h2
      | err e k' => rw [ho] at h2; exact noStruct_putBack h h2
      | panic => exact trivial
      | noHandle => exact trivial

theorem noStruct_callAt {grow : Nat → Nat} {a : St} (h : NoStruct a.obj) (p : List Nat) (c : Call) :
    callAt true grow p c a = callAt false grow p c a ∧
      After (callAt false grow p c a) fun a' => NoStruct a'.obj := by
  rw [callAt_path, callAt_path]
  exact noStruct_path (fun a h => call_repr h c) (fun a h => noStruct_call h c) h p

theorem run_repr {grow : Nat → Nat} {a : St} (h : NoStruct a.obj) (cs : List (List Nat × Call)) :
    run true grow a cs = run false grow a cs := by
  induction cs generalizing a with
  | nil => rfl
  | cons x r ih =>
    obtain ⟨p, c⟩ := x
    obtain ⟨h1, h2⟩ := noStruct_callAt (grow := grow) h p c
    simp only [run]
    rw [h1]
    cases ho : callAt false grow p c a with
    | ok a' => rw [ho] at h2; simp only; rw [ih h2]
    | err e a' => rw [ho] at h2; simp only; rw [ih h2]
    | panic => rfl
    | noHandle => rfl

theorem run_noStruct {grow : Nat → Nat} {a a' : St} (h : NoStruct a.obj) {cs good : List (List Nat × Call)}
    (hr : run false grow a cs = some (a', good)) : NoStruct a'.obj := by
  induction cs generalizing a good with
  | nil => cases hr; exact h
  | cons x r ih =>
    obtain ⟨p, c⟩ := x
    obtain ⟨-, h2⟩ := noStruct_callAt (grow := grow) h p c
    simp only [run] at hr
    cases ho : callAt false grow p c a with
    | ok st =>
      rw [ho] at h2 hr
      simp only at hr
      cases hr1 : run false grow st r with
      | none => rw [hr1] at hr; cases hr
      | some y => rw [hr1] at hr; cases hr; exact ih h2 hr1
    | err e st => rw [ho] at h2 hr; exact ih h2 hr
    | panic => rw [ho] at hr; cases hr
    | noHandle => rw [ho] at hr; cases hr

end Verif.Handles
