import Verif.Proofs.HandlesRun

/-! Kept handles of types whose parts are all scalar. -/

namespace Verif.Handles

open Calls Spec

/-- Scalars, lists of scalars, and the typed view of structs of required scalars. -/
def Flat (t : T) (repr : Bool) : Prop :=
  match t.shape with
  | .struct fs => repr = false ∧ ∀ fd ∈ fs, fd.required = true ∧ parts fd.ty = []
  | .list e => parts e = []
  | _ => True

/-- Which assembler was handed out last. -/
def spot (o : Obj) : Nat :=
  match o.ty.shape with
  | .struct _ => o.f
  | _ => 0

/-- No assembler but the one handed out last can write. -/
def Quiet (o : Obj) : Prop :=
  ∀ (i : Nat) (k : Obj), o.kids[i]? = some k → parts k.ty = [] ∧ k.kids = [] ∧ k.m = .parent ∧
    k.begun = false ∧ ((o.ph = .midValue ∧ i = spot o) ∨ k.w = none)

theorem flat_start {t : T} {repr : Bool} (hf : Flat t repr) : Quiet (builder t).obj := by
  intro i k hk
  have hk' : (newObj (rank t) t).kids[i]? = some k := by
    rw [← hk]
    show _ = ((newObj (rank t) t).lend (some (0, [])) .builder).kids[i]?
    cases newObj (rank t) t
    rfl
  have key : ∀ n (u : T), parts u = [] → k = newObj n u → parts k.ty = [] ∧ k.kids = [] ∧ k.m = .parent ∧
      k.begun = false ∧ (((builder t).obj.ph = .midValue ∧ i = spot (builder t).obj) ∨ k.w = none) := by
    intro n u hu he
    have h5 : (newObj n u).kids = [] := by
      unfold newObj
      simp only [Obj.kids]
      cases n with
      | zero => rfl
      | succ n =>
        cases hs : u.shape with
        | text => rfl
        | link => rfl
        | list e => simp [parts, hs] at hu
        | struct fs => exact absurd hu (parts_ne_struct hs)
    subst he
    refine ⟨?_, h5, ?_, ?_, Or.inr ?_⟩
    · unfold newObj; exact hu
    · unfold newObj; rfl
    · unfold newObj; rfl
    · unfold newObj; rfl
  unfold newObj at hk'
  simp only [Obj.kids] at hk'
  unfold Flat at hf
  cases hr : rank t with
  | zero => rw [hr] at hk'; simp at hk'
  | succ n =>
    rw [hr] at hk'
    cases hs : t.shape with
    | text => rw [hs] at hk'; simp at hk'
    | link => rw [hs] at hk'; simp at hk'
    | list e =>
      rw [hs] at hk' hf
      simp only at hk' hf
      cases i with
      | zero => simp at hk'; exact key n e hf hk'.symm
      | succ i => simp at hk'
    | struct fs =>
      rw [hs] at hk' hf
      simp only [List.getElem?_map] at hk' hf
      cases hfd : fs[i]? with
      | none => rw [hfd] at hk'; cases hk'
      | some fd =>
        rw [hfd] at hk'
        cases hk'
        exact key n fd.ty (hf.2 fd (List.mem_of_getElem? hfd)).2 rfl

theorem reset_scalar {o : Obj} (h : parts o.ty = []) : o.reset = o := by
  obtain ⟨t, w, m, g, b, ph, s, f, cm, kids⟩ := o
  unfold Obj.reset
  cases hs : t.shape with
  | text => rfl
  | link => rfl
  | list e => exact absurd h (parts_ne_list hs)
  | struct fs => exact absurd h (parts_ne_struct hs)

/-- The state check. -/
theorem flat_ready {repr : Bool} {a a' : St} (hf : Flat a.obj.ty repr) (hq : Quiet a.obj)
    (h : ready repr a = some a') :
    Quiet a'.obj ∧ a'.obj.ph = .initial ∧ a'.obj.ty = a.obj.ty ∧ a'.obj.begun = a.obj.begun := by
  obtain ⟨μ, mk, t, w, m, g, b, ph, s, f, cm, kids⟩ := a
  unfold ready at h
  cases ph with
  | initial => cases h; exact ⟨hq, rfl, rfl, rfl⟩
  | midKey => cases h
  | expectValue => cases h
  | finished => cases h
  | midValue =>
    simp only [Obj.ph] at h
    unfold Flat at hf
    simp only [Obj.ty] at hf
    simp only [tidy] at h
    cases hs : t.shape with
    | text => rw [hs] at h; cases h
    | link => rw [hs] at h; cases h
    | list e =>
      rw [hs] at h
      simp only at h
      split at h
      · cases h
        refine ⟨?_, rfl, rfl, rfl⟩
        intro i k hk
        simp only [Obj.kids, modifyKid_get] at hk
        split at hk
        · subst i
          cases hk0 : kids[0]? with
          | none => rw [hk0] at hk; cases hk
          | some k0 =>
            rw [hk0] at hk
            cases hk
            have h0 := hq 0 k0 hk0
            obtain ⟨t0, w0, m0, g0, b0, p0, s0, f0, c0, ks0⟩ := k0
            have he := reset_scalar (o := Obj.park (.mk t0 w0 m0 g0 b0 p0 s0 f0 c0 ks0)) h0.1
            simp only [he]
            exact ⟨h0.1, h0.2.1, h0.2.2.1, h0.2.2.2.1, Or.inr rfl⟩
        · rename_i hne
          obtain ⟨q1, q2, q3, q4, q5⟩ := hq i k hk
          refine ⟨q1, q2, q3, q4, Or.inr ?_⟩
          rcases q5 with ⟨-, q5⟩ | q5
          · simp only [spot, Obj.ty, hs] at q5; exact absurd q5.symm hne
          · exact q5
      · cases h
    | struct fs =>
      rw [hs] at h hf
      simp only at h hf
      cases hfd : fs[f]? with
      | none => rw [hfd] at h; cases h
      | some fd =>
        rw [hfd] at h
        simp only [(hf.2 fd (List.mem_of_getElem? hfd)).1, if_true] at h
        split at h
        · cases h
          refine ⟨?_, rfl, rfl, rfl⟩
          intro i k hk
          simp only [hf.1, Bool.false_eq_true, if_false, Obj.kids, modifyKid_get] at hk
          split at hk
          · subst i
            cases hk0 : kids[f]? with
            | none => rw [hk0] at hk; cases hk
            | some k0 =>
              rw [hk0] at hk
              cases hk
              have h0 := hq f k0 hk0
              obtain ⟨t0, w0, m0, g0, b0, p0, s0, f0, c0, ks0⟩ := k0
              exact ⟨h0.1, h0.2.1, h0.2.2.1, h0.2.2.2.1, Or.inr rfl⟩
          · rename_i hne
            obtain ⟨q1, q2, q3, q4, q5⟩ := hq i k hk
            refine ⟨q1, q2, q3, q4, Or.inr ?_⟩
            rcases q5 with ⟨-, q5⟩ | q5
            · simp only [spot, Obj.ty, hs, Obj.f] at q5; exact absurd q5.symm hne
            · exact q5
        · cases h

/-- Handing out an assembler when none is in use. -/
theorem flat_lend {t : T} {w w' kw : Option Ptr} {m m' : MarkAt} {g g' b b' : Bool} {ph : MaState} {s s' f f' : Nat}
    {cm cm' : Maybe} {kids : List Obj} {i : Nat} (hq : Quiet (.mk t w m g b ph s f cm kids)) (hph : ph ≠ .midValue)
    (hi : i = match t.shape with | .struct _ => f' | _ => 0) :
    Quiet (.mk t w' m' g' b' .midValue s' f' cm' (modifyKid (Obj.lend kw .parent) i kids)) := by
  intro j k hk
  simp only [Obj.kids, modifyKid_get] at hk
  split at hk
  · rename_i hij
    cases hk0 : kids[j]? with
    | none => rw [hk0] at hk; cases hk
    | some k0 =>
      rw [hk0] at hk
      cases hk
      have h0 := hq j k0 hk0
      obtain ⟨t0, w0, m0, g0, b0, p0, s0, f0, c0, ks0⟩ := k0
      refine ⟨h0.1, h0.2.1, rfl, h0.2.2.2.1, Or.inl ⟨rfl, ?_⟩⟩
      rw [← hij, hi]
      rfl
  · obtain ⟨q1, q2, q3, q4, q5⟩ := hq j k hk
    refine ⟨q1, q2, q3, q4, Or.inr ?_⟩
    rcases q5 with ⟨q5, -⟩ | q5
    · exact absurd q5 hph
    · exact q5

theorem flat_still {t : T} {w w' : Option Ptr} {m m' : MarkAt} {g g' b b' : Bool} {ph ph' : MaState}
    {s s' f f' : Nat} {cm cm' : Maybe} {kids : List Obj} (hq : Quiet (.mk t w m g b ph s f cm kids))
    (hph : ph ≠ .midValue) : Quiet (.mk t w' m' g' b' ph' s' f' cm' kids) := by
  intro j k hk
  obtain ⟨q1, q2, q3, q4, q5⟩ := hq j k hk
  refine ⟨q1, q2, q3, q4, Or.inr ?_⟩
  rcases q5 with ⟨q5, -⟩ | q5
  · exact absurd q5 hph
  · exact q5

theorem flat_same {t : T} {w w' : Option Ptr} {m m' : MarkAt} {g g' b b' : Bool} {ph : MaState}
    {s s' f : Nat} {cm cm' : Maybe} {kids : List Obj} (hq : Quiet (.mk t w m g b ph s f cm kids)) :
    Quiet (.mk t w' m' g' b' ph s' f cm' kids) := fun j k hk => hq j k hk

/-- What a call leaves behind. -/
def After (o : Out) (P : St → Prop) : Prop :=
  match o with
  | .ok a => P a
  | .err _ a => P a
  | _ => True

/-- Which calls give out the map or list assembler. -/
def Opens : Call → Prop
  | .beginMap => True
  | .beginList _ => True
  | _ => False

theorem flat_call {repr : Bool} {a : St} (grow : Nat → Nat) (hf : Flat a.obj.ty repr) (hq : Quiet a.obj) (c : Call) :
    After (call repr grow a c) fun a' => Quiet a'.obj ∧ a'.obj.ty = a.obj.ty ∧
      (Opens c ∨ a'.obj.begun = a.obj.begun) := by
  have key : ∀ (x : Bool) (o : Out) (P : St → Prop), After o P → After (if x then o else .noHandle) P := by
    intro x o P h
    cases x
    · exact trivial
    · exact h
  have hsame : Quiet a.obj ∧ a.obj.ty = a.obj.ty ∧ (Opens c ∨ a.obj.begun = a.obj.begun) := ⟨hq, rfl, Or.inr rfl⟩
  unfold call
  cases c with
  | beginMap =>
    refine key _ _ _ ?_
    obtain ⟨μ, mk, t, w, m, g, b, ph, s, f, cm, kids⟩ := a
    simp only [beginMap]
    (repeat' split) <;> first | exact trivial | exact hsame | exact ⟨flat_same hq, rfl, Or.inl trivial⟩
  | beginList n =>
    refine key _ _ _ ?_
    obtain ⟨μ, mk, t, w, m, g, b, ph, s, f, cm, kids⟩ := a
    simp only [beginList]
    (repeat' split) <;> first | exact trivial | exact hsame | exact ⟨flat_same hq, rfl, Or.inl trivial⟩
  | assignNull =>
    refine key _ _ _ ?_
    simp only [assignNull]
    split
    · exact hsame
    · exact trivial
  | assignOther => exact key _ _ _ hsame
  | assignString x =>
    refine key _ _ _ ?_
    obtain ⟨μ, mk, t, w, m, g, b, ph, s, f, cm, kids⟩ := a
    simp only [assignString]
    (repeat' split) <;> first | exact trivial | exact hsame | exact ⟨flat_same hq, rfl, Or.inr rfl⟩
  | assignLink x =>
    refine key _ _ _ ?_
    obtain ⟨μ, mk, t, w, m, g, b, ph, s, f, cm, kids⟩ := a
    simp only [assignLink]
    (repeat' split) <;> first | exact trivial | exact hsame | exact ⟨flat_same hq, rfl, Or.inr rfl⟩
  | assignSelf u v =>
    refine key _ _ _ ?_
    obtain ⟨μ, mk, t, w, m, g, b, ph, s, f, cm, kids⟩ := a
    simp only [assignSelf]
    (repeat' split) <;> first | exact trivial | exact hsame | exact ⟨flat_same hq, rfl, Or.inr rfl⟩
  | assembleEntry x =>
    refine key _ _ _ ?_
    simp only [assembleEntry]
    cases hs : a.obj.ty.shape with
    | text => exact trivial
    | link => exact trivial
    | list e => exact trivial
    | struct fs =>
      simp only
      cases hr : ready repr a with
      | none => exact trivial
      | some a' =>
        obtain ⟨h1, h2, h3, h4⟩ := flat_ready hf hq hr
        obtain ⟨μ, mk, t, w, m, g, b, ph, s, f, cm, kids⟩ := a'
        replace h2 : ph = .initial := h2
        replace h3 : t = a.obj.ty := h3
        simp only
        cases hk : takeKey fs x s with
        | panic => exact trivial
        | err e => exact ⟨h1, h3, Or.inr h4⟩
        | ok q =>
          obtain ⟨i, fd⟩ := q
          simp only
          unfold Flat at hf
          rw [hs] at hf
          have hfd := (hf.2 fd (List.mem_of_getElem? (takeKey_ok hk).1)).1
          cases w with
          | none => exact trivial
          | some p =>
            simp only [lendField, hfd, if_true]
            refine ⟨flat_lend h1 (by rw [h2]; intro h; cases h) ?_, h3, Or.inr h4⟩
            rw [h3, hs]
  | assembleKey =>
    refine key _ _ _ ?_
    simp only [assembleKey]
    cases hs : a.obj.ty.shape with
    | text => exact trivial
    | link => exact trivial
    | list e => exact trivial
    | struct fs =>
      simp only
      cases hr : ready repr a with
      | none => exact trivial
      | some a' =>
        obtain ⟨h1, h2, h3, h4⟩ := flat_ready hf hq hr
        obtain ⟨μ, mk, t, w, m, g, b, ph, s, f, cm, kids⟩ := a'
        replace h2 : ph = .initial := h2
        exact ⟨flat_still h1 (by rw [h2]; intro h; cases h), h3, Or.inr h4⟩
  | keyAssign x =>
    refine key _ _ _ ?_
    obtain ⟨μ, mk, t, w, m, g, b, ph, s, f, cm, kids⟩ := a
    simp only [keyAssign]
    cases hs : t.shape with
    | text => exact trivial
    | link => exact trivial
    | list e => exact trivial
    | struct fs =>
      simp only
      split
      · exact trivial
      · rename_i hph
        cases takeKey fs x s with
        | panic => exact trivial
        | err e => exact hsame
        | ok q =>
          obtain ⟨i, fd⟩ := q
          refine ⟨flat_still hq ?_, rfl, Or.inr rfl⟩
          intro h
          rw [h] at hph
          exact hph (by intro h; cases h)
  | keyAssignOther =>
    refine key _ _ _ ?_
    simp only [keyAssignOther]
    split
    · exact hsame
    · exact trivial
  | assembleValue =>
    refine key _ _ _ ?_
    simp only [assembleValue]
    cases hs : a.obj.ty.shape with
    | text => exact trivial
    | link => exact trivial
    | list e =>
      simp only
      cases hr : ready repr a with
      | none => exact trivial
      | some a' =>
        obtain ⟨h1, h2, h3, h4⟩ := flat_ready hf hq hr
        obtain ⟨μ, mk, t, w, m, g, b, ph, s, f, cm, kids⟩ := a'
        replace h2 : ph = .initial := h2
        replace h3 : t = a.obj.ty := h3
        simp only
        split
        · exact trivial
        · refine ⟨flat_lend h1 (by rw [h2]; intro h; cases h) ?_, h3, Or.inr h4⟩
          rw [h3, hs]
    | struct fs =>
      obtain ⟨μ, mk, t, w, m, g, b, ph, s, f, cm, kids⟩ := a
      replace hs : t.shape = .struct fs := hs
      cases ph with
      | expectValue =>
        simp only
        cases hfd : fs[f]? with
        | none => exact trivial
        | some fd =>
          simp only
          unfold Flat at hf
          simp only [Obj.ty, hs] at hf
          cases w with
          | none => exact trivial
          | some p =>
            simp only [lendField, (hf.2 fd (List.mem_of_getElem? hfd)).1, if_true]
            refine ⟨flat_lend hq (by intro h; cases h) ?_, rfl, Or.inr rfl⟩
            rw [hs]
      | _ => exact trivial
  | finish =>
    refine key _ _ _ ?_
    simp only [finish]
    cases hs : a.obj.ty.shape with
    | text => exact trivial
    | link => exact trivial
    | list e =>
      simp only
      cases hr : ready repr a with
      | none => exact trivial
      | some a' =>
        obtain ⟨h1, h2, h3, h4⟩ := flat_ready hf hq hr
        obtain ⟨μ, mk, t, w, m, g, b, ph, s, f, cm, kids⟩ := a'
        replace h2 : ph = .initial := h2
        exact ⟨flat_still h1 (by rw [h2]; intro h; cases h), h3, Or.inr h4⟩
    | struct fs =>
      simp only
      cases hr : ready repr a with
      | none => exact trivial
      | some a' =>
        obtain ⟨h1, h2, h3, h4⟩ := flat_ready hf hq hr
        obtain ⟨μ, mk, t, w, m, g, b, ph, s, f, cm, kids⟩ := a'
        replace h2 : ph = .initial := h2
        simp only
        split
        · exact ⟨h1, h3, Or.inr h4⟩
        · exact ⟨flat_still h1 (by rw [h2]; intro h; cases h), h3, Or.inr h4⟩

/-- A call on a scalar assembler leaves the assembler itself alone. -/
theorem scalar_call {repr : Bool} {grow : Nat → Nat} {a : St} (ht : parts a.obj.ty = []) (hb : a.obj.begun = false)
    (c : Call) : (After (call repr grow a c) fun a' => a'.obj = a.obj) ∧
      (a.obj.w = none → (∃ e, call repr grow a c = .err e a) ∨ call repr grow a c = .panic ∨
        call repr grow a c = .noHandle) := by
  obtain ⟨μ, mk, t, w, m, g, b, ph, s, f, cm, kids⟩ := a
  have hb : b = false := hb
  subst hb
  have ht : parts t = [] := ht
  have hsh : t.shape = .text ∨ t.shape = .link := by
    cases hs : t.shape with
    | text => exact Or.inl rfl
    | link => exact Or.inr rfl
    | list e => exact absurd ht (parts_ne_list hs)
    | struct fs => exact absurd ht (parts_ne_struct hs)
  unfold call
  cases g with
  | false => cases c <;> exact ⟨trivial, fun _ => Or.inr (Or.inr rfl)⟩
  | true =>
    rcases hsh with hs | hs <;> cases c <;>
      simp only [Obj.given, Obj.begun, if_true, Bool.false_eq_true, if_false, beginMap, beginList, assignNull,
        assignString, assignLink, assignSelf, hs, Obj.w] <;>
      first
      | exact ⟨trivial, fun _ => Or.inr (Or.inr rfl)⟩
      | exact ⟨rfl, fun _ => Or.inl ⟨_, rfl⟩⟩
      | (cases w <;> (repeat' split) <;> simp_all [After])

/-- A call that the client has no handle for. -/
theorem noHandle_call {repr : Bool} {grow : Nat → Nat} {μ : Mem} {mk : Maybe} {o : Obj} {a : Frame}
    (ht : o.ty = a.ty) (hb : o.begun = true → a.begun = true) (c : Call) (h : a.call c = .noHandle) :
    call repr grow ⟨μ, mk, o⟩ c = .noHandle := by
  have hob : a.begun = false → o.begun = false := by
    intro h
    cases ho : o.begun with
    | false => rfl
    | true => rw [hb ho] at h; cases h
  unfold call
  unfold Frame.call at h
  cases c with
  | beginMap =>
    obtain ⟨t, w, m, b, ph, s, f, ch⟩ := a
    simp only [Calls.beginMap] at h
    (repeat' split at h) <;> cases h
  | beginList n =>
    obtain ⟨t, w, m, b, ph, s, f, ch⟩ := a
    simp only [Calls.beginList] at h
    (repeat' split at h) <;> cases h
  | assignNull => simp only [Calls.assignNull] at h; split at h <;> cases h
  | assignOther => cases h
  | assignString x =>
    obtain ⟨t, w, m, b, ph, s, f, ch⟩ := a
    simp only [Calls.assignString] at h
    (repeat' split at h) <;> cases h
  | assignLink x =>
    obtain ⟨t, w, m, b, ph, s, f, ch⟩ := a
    simp only [Calls.assignLink] at h
    (repeat' split at h) <;> cases h
  | assignSelf u v =>
    obtain ⟨t, w, m, b, ph, s, f, ch⟩ := a
    obtain ⟨t', w', m', g', b', ph', s', f', cm', kids⟩ := o
    have ht : t' = t := ht
    subst ht
    simp only [Calls.assignSelf] at h
    by_cases hu : u = t'
    · exfalso
      subst hu
      simp only [ne_eq, not_true_eq_false, if_false] at h
      (repeat' split at h) <;> cases h
    · simp only [assignSelf, ne_eq, hu, not_false_eq_true, if_true]
      split <;> rfl
  | assembleEntry x =>
    simp only at h ⊢
    cases hab : a.begun with
    | false => rw [hob hab]; rfl
    | true =>
      rw [hab] at h
      simp only [if_true, Calls.assembleEntry] at h
      simp only [assembleEntry, ht]
      cases hs : a.ty.shape <;> rw [hs] at h <;> simp only at h ⊢ <;> (repeat' split at h) <;>
        first | (split <;> rfl) | cases h
  | assembleKey =>
    simp only at h ⊢
    cases hab : a.begun with
    | false => rw [hob hab]; rfl
    | true =>
      rw [hab] at h
      simp only [if_true, Calls.assembleKey] at h
      simp only [assembleKey, ht]
      cases hs : a.ty.shape <;> rw [hs] at h <;> simp only at h ⊢ <;> (repeat' split at h) <;>
        first | (split <;> rfl) | cases h
  | keyAssign x =>
    simp only at h ⊢
    cases hab : a.begun with
    | false => rw [hob hab]; rfl
    | true =>
      rw [hab] at h
      obtain ⟨t, w, m, b, ph, s, f, ch⟩ := a
      obtain ⟨t', w', m', g', b', ph', s', f', cm', kids⟩ := o
      have ht : t' = t := ht
      subst ht
      simp only [if_true, Calls.keyAssign] at h
      simp only [keyAssign]
      cases hs : t'.shape <;> rw [hs] at h <;> simp only at h ⊢ <;> (repeat' split at h) <;>
        first | (split <;> rfl) | cases h
  | keyAssignOther =>
    simp only at h ⊢
    cases hab : a.begun with
    | false => rw [hob hab]; rfl
    | true =>
      rw [hab] at h
      simp only [if_true, Calls.keyAssignOther] at h
      simp only [keyAssignOther, ht]
      cases hs : a.ty.shape <;> rw [hs] at h <;> simp only at h ⊢ <;>
        first | (split <;> rfl) | cases h
  | assembleValue =>
    simp only at h ⊢
    cases hab : a.begun with
    | false => rw [hob hab]; rfl
    | true =>
      rw [hab] at h
      simp only [if_true, Calls.assembleValue] at h
      simp only [assembleValue, ht]
      cases hs : a.ty.shape <;> rw [hs] at h <;> simp only at h ⊢ <;> (repeat' split at h) <;>
        first | (split <;> rfl) | cases h
  | finish =>
    simp only at h ⊢
    cases hab : a.begun with
    | false => rw [hob hab]; rfl
    | true =>
      rw [hab] at h
      simp only [if_true, Calls.finish] at h
      simp only [finish, ht]
      cases hs : a.ty.shape <;> rw [hs] at h <;> simp only at h ⊢ <;> (repeat' split at h) <;>
        first | (split <;> rfl) | cases h

theorem begun_mono {a : Frame} (c : Call) :
    (∀ a', a.call c = .ok a' → (a.begun = true ∨ Opens c) → a'.begun = true) ∧
      ∀ e a', a.call c = .err e a' → a.begun = true → a'.begun = true := by
  have hr : ∀ a a', Calls.ready a = some a' → a'.begun = a.begun := by
    intro a a' h
    obtain ⟨t, w, m, b, ph, s, f, ch⟩ := a
    cases ph <;> cases ch <;> simp only [Calls.ready] at h <;> (repeat' split at h) <;> cases h <;> rfl
  constructor
  · intro a' h hb
    unfold Frame.call at h
    cases c with
    | beginMap =>
      obtain ⟨t, w, m, b, ph, s, f, ch⟩ := a
      simp only [Calls.beginMap] at h
      (repeat' split at h) <;> cases h
      rfl
    | beginList n =>
      obtain ⟨t, w, m, b, ph, s, f, ch⟩ := a
      simp only [Calls.beginList] at h
      (repeat' split at h) <;> cases h <;> rfl
    | assignNull => simp only [Calls.assignNull] at h; split at h <;> cases h
    | assignOther => cases h
    | assignString x =>
      replace hb := hb.resolve_right id
      obtain ⟨t, w, m, b, ph, s, f, ch⟩ := a
      simp only [Calls.assignString] at h
      (repeat' split at h) <;> cases h <;> exact hb
    | assignLink x =>
      replace hb := hb.resolve_right id
      obtain ⟨t, w, m, b, ph, s, f, ch⟩ := a
      simp only [Calls.assignLink] at h
      (repeat' split at h) <;> cases h <;> exact hb
    | assignSelf u v =>
      replace hb := hb.resolve_right id
      obtain ⟨t, w, m, b, ph, s, f, ch⟩ := a
      simp only [Calls.assignSelf] at h
      (repeat' split at h) <;> cases h <;> exact hb
    | assembleEntry x =>
      replace hb := hb.resolve_right id
      simp only [hb, if_true, Calls.assembleEntry] at h
      split at h
      · cases hq : Calls.ready a with
        | none => rw [hq] at h; cases h
        | some q =>
          rw [hq] at h
          have := hr _ _ hq
          obtain ⟨t, w, m, b, ph, s, f, ch⟩ := q
          simp only at h
          split at h <;> cases h
          exact this.trans hb
      · cases h
    | assembleKey =>
      replace hb := hb.resolve_right id
      simp only [hb, if_true, Calls.assembleKey] at h
      split at h
      · cases hq : Calls.ready a with
        | none => rw [hq] at h; cases h
        | some q =>
          rw [hq] at h
          have := hr _ _ hq
          obtain ⟨t, w, m, b, ph, s, f, ch⟩ := q
          cases h
          exact this.trans hb
      · cases h
    | keyAssign x =>
      replace hb := hb.resolve_right id
      simp only [hb, if_true] at h
      obtain ⟨t, w, m, b, ph, s, f, ch⟩ := a
      simp only [Calls.keyAssign] at h
      (repeat' split at h) <;> cases h <;> exact hb
    | keyAssignOther =>
      replace hb := hb.resolve_right id
      simp only [hb, if_true, Calls.keyAssignOther] at h
      split at h <;> cases h
    | assembleValue =>
      replace hb := hb.resolve_right id
      simp only [hb, if_true, Calls.assembleValue] at h
      split at h
      · obtain ⟨t, w, m, b, ph, s, f, ch⟩ := a
        cases ph <;> simp only at h <;> first | cases h | ((repeat' split at h) <;> cases h <;> exact hb)
      · cases hq : Calls.ready a with
        | none => rw [hq] at h; cases h
        | some q =>
          rw [hq] at h
          have := hr _ _ hq
          obtain ⟨t, w, m, b, ph, s, f, ch⟩ := q
          cases h
          exact this.trans hb
      · cases h
    | finish =>
      replace hb := hb.resolve_right id
      simp only [hb, if_true, Calls.finish] at h
      split at h
      · cases hq : Calls.ready a with
        | none => rw [hq] at h; cases h
        | some q =>
          rw [hq] at h
          have := hr _ _ hq
          obtain ⟨t, w, m, b, ph, s, f, ch⟩ := q
          simp only at h
          split at h <;> cases h
          exact this.trans hb
      · cases hq : Calls.ready a with
        | none => rw [hq] at h; cases h
        | some q =>
          rw [hq] at h
          have := hr _ _ hq
          obtain ⟨t, w, m, b, ph, s, f, ch⟩ := q
          cases h
          exact this.trans hb
      · cases h
  · intro e a' h hb
    unfold Frame.call at h
    cases c with
    | beginMap =>
      obtain ⟨t, w, m, b, ph, s, f, ch⟩ := a
      simp only [Calls.beginMap] at h
      (repeat' split at h) <;> cases h <;> exact hb
    | beginList n =>
      obtain ⟨t, w, m, b, ph, s, f, ch⟩ := a
      simp only [Calls.beginList] at h
      (repeat' split at h) <;> cases h <;> exact hb
    | assignNull => simp only [Calls.assignNull] at h; split at h <;> cases h <;> exact hb
    | assignOther => cases h; exact hb
    | assignString x =>
      obtain ⟨t, w, m, b, ph, s, f, ch⟩ := a
      simp only [Calls.assignString] at h
      (repeat' split at h) <;> cases h <;> exact hb
    | assignLink x =>
      obtain ⟨t, w, m, b, ph, s, f, ch⟩ := a
      simp only [Calls.assignLink] at h
      (repeat' split at h) <;> cases h <;> exact hb
    | assignSelf u v =>
      obtain ⟨t, w, m, b, ph, s, f, ch⟩ := a
      simp only [Calls.assignSelf] at h
      (repeat' split at h) <;> cases h
    | assembleEntry x =>
      simp only [hb, if_true, Calls.assembleEntry] at h
      split at h
      · cases hq : Calls.ready a with
        | none => rw [hq] at h; cases h
        | some q =>
          rw [hq] at h
          have := hr _ _ hq
          obtain ⟨t, w, m, b, ph, s, f, ch⟩ := q
          simp only at h
          split at h <;> cases h
          exact this.trans hb
      · cases h
    | assembleKey =>
      simp only [hb, if_true, Calls.assembleKey] at h
      (repeat' split at h) <;> cases h
    | keyAssign x =>
      simp only [hb, if_true] at h
      obtain ⟨t, w, m, b, ph, s, f, ch⟩ := a
      simp only [Calls.keyAssign] at h
      (repeat' split at h) <;> cases h <;> exact hb
    | keyAssignOther =>
      simp only [hb, if_true, Calls.keyAssignOther] at h
      split at h <;> cases h
      exact hb
    | assembleValue =>
      simp only [hb, if_true, Calls.assembleValue] at h
      (repeat' split at h) <;> cases h
    | finish =>
      simp only [hb, if_true, Calls.finish] at h
      split at h
      · cases hq : Calls.ready a with
        | none => rw [hq] at h; cases h
        | some q =>
          rw [hq] at h
          have := hr _ _ hq
          obtain ⟨t, w, m, b, ph, s, f, ch⟩ := q
          simp only at h
          split at h <;> cases h
          exact this.trans hb
      · cases hq : Calls.ready a with
        | none => rw [hq] at h; cases h
        | some q =>
          rw [hq] at h
          obtain ⟨t, w, m, b, ph, s, f, ch⟩ := q
          cases h
      · cases h

/-- The place of the child in use. -/
theorem sim_spot {μ : Mem} {mk : Maybe} {o : Obj} {a : Frame} {F : Foot} (h : Sim μ mk o a F)
    (hn : parts a.ty ≠ []) (hph : o.ph = .midValue) : ∃ ch, a.child = some ch ∧ current 1 a = [spot o] := by
  have h1 := sim_head h
  have hap : a.ph = .midValue := by rw [← h1.ph hn]; exact hph
  have key : ∀ ch, a.child = some ch → current 1 a = [spot o] := by
    intro ch hc
    unfold current spot
    rw [hc, h1.ty]
    simp only [current]
    cases hs : a.ty.shape with
    | struct fs =>
      simp only
      rw [h1.f (Or.inr hap) (by unfold IsStruct; exact ⟨fs, hs⟩)]
    | _ => rfl
  cases h with
  | rest _ _ h3 => exact absurd hap h3
  | inList _ _ hc => exact ⟨_, hc, key _ hc⟩
  | inStruct _ _ hc => exact ⟨_, hc, key _ hc⟩

/-- The assembler handed out last is the one that the child of the frame stands for. -/
theorem sim_kid {μ : Mem} {mk : Maybe} {o : Obj} {a ch : Frame} {F : Foot} (h : Sim μ mk o a F)
    (hc : a.child = some ch) {k : Obj} (hk : o.kids[spot o]? = some k) : k.ty = ch.ty := by
  have h1 := sim_head h
  cases h with
  | rest _ h2 => rw [hc] at h2; cases h2
  | inList _ hs hc' _ hks _ _ _ _ _ _ _ _ _ _ _ _ _ _ hsub =>
    rw [hc'] at hc
    cases hc
    unfold spot at hk
    rw [h1.ty, hs, hks] at hk
    cases hk
    exact (sim_head hsub).ty
  | inStruct _ hs hc' hph _ _ hks _ _ _ _ _ _ _ _ _ _ _ hsub =>
    rw [hc'] at hc
    cases hc
    unfold spot at hk
    rw [h1.ty, hs] at hk
    simp only at hk
    rw [h1.f (Or.inr hph) ⟨_, hs⟩, hks] at hk
    cases hk
    exact (sim_head hsub).ty

theorem set_same {α : Type} {l : List α} {i : Nat} {x : α} (h : l[i]? = some x) : l.set i x = l := by
  obtain ⟨hi, rfl⟩ := List.getElem?_eq_some_iff.1 h
  exact List.set_getElem_self hi

theorem putBack_same {a : St} {i : Nat} {k : Obj} (hk : a.obj.kids[i]? = some k) (hm : k.m = .parent) :
    putBack a i ⟨a.mem, a.obj.cm, k⟩ = a := by
  obtain ⟨μ, mk, t, w, m, g, b, ph, s, f, cm, kids⟩ := a
  unfold putBack
  simp only [hm, Obj.cm]
  congr 2
  exact set_same hk

theorem putBack_quiet {a : St} {i : Nat} {k : Obj} {μ : Mem} {mk : Maybe} (hk : a.obj.kids[i]? = some k)
    (hm : k.m = .parent) (hq : Quiet a.obj) : Quiet (putBack a i ⟨μ, mk, k⟩).obj ∧
      (putBack a i ⟨μ, mk, k⟩).obj.ty = a.obj.ty ∧ (putBack a i ⟨μ, mk, k⟩).obj.begun = a.obj.begun := by
  obtain ⟨μ', mk', t, w, m, g, b, ph, s, f, cm, kids⟩ := a
  unfold putBack
  simp only [hm]
  rw [set_same (l := kids) hk]
  exact ⟨flat_same hq, rfl, rfl⟩

theorem sim_parts {μ : Mem} {mk : Maybe} {o : Obj} {a : Frame} {F : Foot} (h : Sim μ mk o a F) {i : Nat} {k : Obj}
    (hk : o.kids[i]? = some k) : parts a.ty ≠ [] := by
  cases h with
  | rest _ _ _ _ h5 =>
    intro hn
    have := h5.1
    rw [hn] at this
    rw [List.eq_nil_of_length_eq_zero this] at hk
    simp at hk
  | inList _ hs => exact parts_ne_list hs
  | inStruct _ hs => exact parts_ne_struct hs

/-- A call on any handle does what the current handle does, or nothing. -/
def Tracks (a : Frame) (μ : Mem) (mk : Maybe) (o : Obj) (d : Nat) (c : Call) (r : Out) : Prop :=
  match r with
  | .ok st => ∃ a' F', a.callAt d c = .ok a' ∧ Sim st.mem st.mark st.obj a' F' ∧ Quiet st.obj ∧
      (st.obj.begun = true → a'.begun = true)
  | .err e st => st = ⟨μ, mk, o⟩ ∨ ∃ a' F', a.callAt d c = .err e a' ∧ Sim st.mem st.mark st.obj a' F' ∧
      Quiet st.obj ∧ (st.obj.begun = true → a'.begun = true)
  | _ => True

theorem flat_step {μ : Mem} {mk : Maybe} {o : Obj} {a : Frame} {F : Foot} {t : T} {cs : List (Nat × Call)}
    {repr : Bool} (grow : Nat → Nat) (hf : Flat t repr) (hp : Partial t a cs) (h : Sim μ mk o a F) (hq : Quiet o)
    (hb : o.begun = true → a.begun = true) (p : List Nat) (c : Call)
    (hc : ∀ u v, c = .assignSelf u v → Complete u v) :
    Tracks a μ mk o p.length c (callAt repr grow p c ⟨μ, mk, o⟩) := by
  have ht := partial_ty hp
  have h1 := sim_head h
  have hto : o.ty = t := by rw [h1.ty, ht]
  cases p with
  | nil =>
    have hst := sim_call repr grow hp h c hc
    have hfl := flat_call (a := ⟨μ, mk, o⟩) grow (by rw [hto]; exact hf) hq c
    have hmono := begun_mono (a := a) c
    simp only [callAt, List.length_nil]
    cases ho : a.call c with
    | ok a' =>
      rw [ho] at hst
      obtain ⟨μ', mk', o', F', h2, h3, -, -⟩ := hst
      rw [h2] at hfl ⊢
      refine ⟨a', F', ho, h3, hfl.1, fun hb' => hmono.1 a' ho ?_⟩
      rcases hfl.2.2 with hop | he
      · exact Or.inr hop
      · exact Or.inl (hb (by rw [← he]; exact hb'))
    | err e a' =>
      rw [ho] at hst
      obtain ⟨μ', mk', o', F', h2, h3, -, -⟩ := hst
      by_cases hsame : (⟨μ', mk', o'⟩ : St) = ⟨μ, mk, o⟩
      · rw [h2]; exact Or.inl hsame
      · rw [h2] at hfl ⊢
        refine Or.inr ⟨a', F', ho, h3, hfl.1, fun hb' => ?_⟩
        rcases hfl.2.2 with hop | he
        · exfalso
          apply hsame
          have : ∀ e st, call repr grow ⟨μ, mk, o⟩ c = .err e st → st = ⟨μ, mk, o⟩ := by
            intro e st hcall
            obtain ⟨t', w', m', g', b', ph', s', f', cm', kids⟩ := o
            unfold call at hcall
            cases c <;> try exact absurd hop id
            · simp only [beginMap] at hcall
              (repeat' split at hcall) <;> cases hcall <;> rfl
            · simp only [beginList] at hcall
              (repeat' split at hcall) <;> cases hcall <;> rfl
          exact this e _ h2
        · exact hmono.2 e a' ho (hb (by rw [← he]; exact hb'))
    | panic =>
      rw [ho] at hst
      have hst : call repr grow ⟨μ, mk, o⟩ c = .panic := hst
      rw [hst]
      exact trivial
    | noHandle => rw [noHandle_call h1.ty hb c ho]; exact trivial
  | cons i r =>
    unfold callAt
    cases hk : o.kids[i]? with
    | none => simp only [kid, hk]; exact trivial
    | some k =>
      obtain ⟨q1, q2, q3, q4, q5⟩ := hq i k hk
      have hkid : kid ⟨μ, mk, o⟩ i = some ⟨μ, o.cm, k⟩ := by simp only [kid, hk, q3]
      rw [hkid]
      simp only
      cases r with
      | cons j r =>
        have : callAt repr grow (j :: r) c ⟨μ, o.cm, k⟩ = .noHandle := by
          unfold callAt
          simp only [kid, q2, List.getElem?_nil]
        rw [this]
        exact trivial
      | nil =>
        simp only [callAt]
        have hsc := scalar_call (repr := repr) (grow := grow) (a := ⟨μ, o.cm, k⟩) q1 q4 c
        rcases q5 with ⟨hph, hi⟩ | hw
        · have hn := sim_parts h hk
          obtain ⟨ch, hch, hcur⟩ := sim_spot h hn hph
          have hst := sim_callAt repr grow hp h 1 c hc
          rw [hcur, ← hi] at hst
          have hst : Steps μ o F (match call repr grow ⟨μ, o.cm, k⟩ c with
              | .ok k => .ok (putBack ⟨μ, mk, o⟩ i k)
              | .err e k => .err e (putBack ⟨μ, mk, o⟩ i k)
              | .panic => .panic
              | .noHandle => .noHandle) (a.callAt 1 c) := by
            have hx := hst
            unfold callAt at hx
            rw [hkid] at hx
            simp only [callAt] at hx
            exact hx
          have hset : ∀ x, (a.setChild x).begun = a.begun := by intro x; cases a; rfl
          simp only [List.length_cons, List.length_nil, Nat.zero_add]
          cases ho : ch.call c with
          | ok ch' =>
            have hco : a.callAt 1 c = .ok (a.setChild ch') := by
              simp only [Frame.callAt, hch, ho]
            rw [hco] at hst
            obtain ⟨μ', mk', o', F', h2, h3, -, -⟩ := hst
            cases hcl : call repr grow ⟨μ, o.cm, k⟩ c with
            | ok k' =>
              rw [hcl] at h2 hsc
              obtain ⟨μk, mkk, ok⟩ := k'
              have hok : ok = k := hsc.1
              subst hok
              simp only [Out.ok.injEq] at h2
              simp only
              have hpb := putBack_quiet (a := ⟨μ, mk, o⟩) (μ := μk) (mk := mkk) hk q3 hq
              refine ⟨_, F', hco, ?_, hpb.1, fun hb' => ?_⟩
              · rw [h2]; exact h3
              · rw [hset]; exact hb (by rw [← hpb.2.2]; exact hb')
            | err e k' => rw [hcl] at h2; cases h2
            | panic => rw [hcl] at h2; cases h2
            | noHandle => rw [hcl] at h2; cases h2
          | err e ch' =>
            have hco : a.callAt 1 c = .err e (a.setChild ch') := by
              simp only [Frame.callAt, hch, ho]
            rw [hco] at hst
            obtain ⟨μ', mk', o', F', h2, h3, -, -⟩ := hst
            cases hcl : call repr grow ⟨μ, o.cm, k⟩ c with
            | err e' k' =>
              rw [hcl] at h2 hsc
              obtain ⟨μk, mkk, ok⟩ := k'
              have hok : ok = k := hsc.1
              subst hok
              simp only [Out.err.injEq] at h2
              obtain ⟨rfl, h2⟩ := h2
              simp only
              have hpb := putBack_quiet (a := ⟨μ, mk, o⟩) (μ := μk) (mk := mkk) hk q3 hq
              refine Or.inr ⟨_, F', hco, ?_, hpb.1, fun hb' => ?_⟩
              · rw [h2]; exact h3
              · rw [hset]; exact hb (by rw [← hpb.2.2]; exact hb')
            | ok k' => rw [hcl] at h2; cases h2
            | panic => rw [hcl] at h2; cases h2
            | noHandle => rw [hcl] at h2; cases h2
          | panic =>
            have hco : a.callAt 1 c = .panic := by simp only [Frame.callAt, hch, ho]
            rw [hco] at hst
            cases hcl : call repr grow ⟨μ, o.cm, k⟩ c with
            | ok k' => rw [hcl] at hst; cases hst
            | err e k' => rw [hcl] at hst; cases hst
            | panic => exact trivial
            | noHandle => exact trivial
          | noHandle =>
            rw [noHandle_call (sim_kid h hch (by rw [← hi]; exact hk)) (by rw [q4]; intro h; cases h) c ho]
            exact trivial
        · rcases hsc.2 hw with ⟨e, he⟩ | he | he
          · rw [he]
            exact Or.inl (putBack_same (a := ⟨μ, mk, o⟩) hk q3)
          · rw [he]; exact trivial
          · rw [he]; exact trivial

theorem flat_run {μ : Mem} {mk : Maybe} {o : Obj} {a : Frame} {F : Foot} {t : T} {pre : List (Nat × Call)}
    {repr : Bool} (grow : Nat → Nat) (hf : Flat t repr) (hp : Partial t a pre) (h : Sim μ mk o a F) (hq : Quiet o)
    (hb : o.begun = true → a.begun = true) {cs good : List (List Nat × Call)} {st : St} (hc : GivesComplete cs)
    (hr : run repr grow ⟨μ, mk, o⟩ cs = some (st, good)) :
    ∃ ds a' F', play a ds = some (a', depths good) ∧ Sim st.mem st.mark st.obj a' F' ∧
      (∀ d u v, (d, Call.assignSelf u v) ∈ depths good → Complete u v) := by
  induction cs generalizing μ mk o a F pre good with
  | nil => cases hr; exact ⟨[], a, F, rfl, h, by intro d u v hm; cases hm⟩
  | cons x r ih =>
    obtain ⟨p, c⟩ := x
    have hc1 : ∀ u v, c = .assignSelf u v → Complete u v := fun u v hu => hc p u v (by simp [hu])
    have hc2 : GivesComplete r := fun p u v hm => hc p u v (List.mem_cons_of_mem _ hm)
    have htr := flat_step grow hf hp h hq hb p c hc1
    have hinv := callAt_inv hp p.length c
    simp only [run] at hr
    cases ho : callAt repr grow p c ⟨μ, mk, o⟩ with
    | ok st1 =>
      rw [ho] at htr hr
      obtain ⟨a1, F1, h1, h2, h3, h4⟩ := htr
      simp only at hr
      cases hr1 : run repr grow st1 r with
      | none => rw [hr1] at hr; cases hr
      | some q =>
        obtain ⟨st2, g⟩ := q
        rw [hr1] at hr
        cases hr
        obtain ⟨ds, a', F', h5, h6, h7⟩ := ih (hinv.1 a1 h1) h2 h3 h4 hc2 hr1
        refine ⟨(p.length, c) :: ds, a', F', ?_, h6, ?_⟩
        · simp only [play, h1, h5, Option.map_some]
          rfl
        · intro d u v hm
          simp only [depths, List.map_cons, List.mem_cons] at hm
          rcases hm with hm | hm
          · cases hm; exact hc1 u v rfl
          · exact h7 d u v hm
    | err e st1 =>
      rw [ho] at htr hr
      simp only at hr
      rcases htr with htr | ⟨a1, F1, h1, h2, h3, h4⟩
      · subst htr
        exact ih hp h hq hb hc2 hr
      · obtain ⟨ds, a', F', h5, h6, h7⟩ := ih (hinv.2 e a1 h1) h2 h3 h4 hc2 hr
        refine ⟨(p.length, c) :: ds, a', F', ?_, h6, h7⟩
        simp only [play, h1, h5]
    | panic => rw [ho] at hr; cases hr
    | noHandle => rw [ho] at hr; cases hr

theorem flat_safe {t : T} {repr : Bool} (hf : Flat t repr) : HandlesSafe t repr := by
  intro grow cs good a v hc hr hb
  obtain ⟨ds, a', F', h1, h2, h3⟩ := flat_run (μ := (builder t).mem) (mk := (builder t).mark)
    (o := (builder t).obj) grow hf (.idle t) (sim_start t) (flat_start hf) (by
      intro h
      unfold builder newObj at h
      cases h) hc hr
  have hp := play_inv (.idle t) h1
  have hbd := sim_build hp h2 (by simpa using h3)
  have : build a = a'.build := hbd
  rw [hb] at this
  exact Props.builder_sound h1 this.symm

end Verif.Handles
