import Verif.Proofs.HandlesFlat

/-! What kept handles can still do in the typed view once a value is built. -/

namespace Verif.Handles

open Calls Spec

/-- Nothing below `n` changes. -/
def Keeps (n : Nat) (μ μ' : Mem) : Prop := n ≤ μ'.next ∧ ∀ r, r < n → μ'.at' r = μ.at' r

theorem keeps_refl {n : Nat} {μ : Mem} (h : n ≤ μ.next) : Keeps n μ μ := ⟨h, fun _ _ => rfl⟩

theorem keeps_trans {n : Nat} {μ μ' μ'' : Mem} (h : Keeps n μ μ') (h' : Keeps n μ' μ'') : Keeps n μ μ'' :=
  ⟨h'.1, fun r hr => (h'.2 r hr).trans (h.2 r hr)⟩

theorem keeps_write {n : Nat} {μ : Mem} {p : Ptr} (x : MVal) (h : n ≤ μ.next) (hp : n ≤ p.1) :
    Keeps n μ (μ.write p x) :=
  ⟨h, fun r hr => write_other μ x (by omega)⟩

theorem keeps_alloc {n : Nat} {μ : Mem} (x : MVal) (h : n ≤ μ.next) : Keeps n μ (μ.alloc x) :=
  ⟨Nat.le_succ_of_le h, fun r hr => alloc_old μ x (by omega)⟩

theorem keeps_storeAll {α : Type} {n : Nat} {st : α → Mem → Mem × MVal} (h : ∀ a μ, n ≤ μ.next → Keeps n μ (st a μ).1)
    (l : List α) {μ : Mem} (hn : n ≤ μ.next) : Keeps n μ (storeAll st l μ).1 := by
  induction l generalizing μ with
  | nil => exact keeps_refl hn
  | cons a r ih =>
    have h1 := h a μ hn
    exact keeps_trans h1 (ih h1.1)

theorem keeps_store {n m : Nat} {t : T} {v : Val} {μ : Mem} (hn : n ≤ μ.next) : Keeps n μ (store m t v μ).1 := by
  induction m generalizing t v μ with
  | zero =>
    unfold store
    split
    all_goals first | exact keeps_refl hn | skip
    all_goals rename_i h _; cases h
  | succ m ih =>
    unfold store
    split
    · exact keeps_refl hn
    · exact keeps_refl hn
    · rename_i k e vs h _
      cases h
      simp only
      have h1 := keeps_storeAll (n := n) (st := store m e) (fun a μ h => ih h) vs hn
      exact keeps_trans h1 (keeps_alloc _ h1.1)
    · rename_i k fs l h _
      cases h
      simp only
      refine keeps_storeAll (fun x μ h => ?_) _ hn
      unfold storeField
      split
      · split
        · exact ih h
        · exact keeps_refl h
      · split
        · split
          · have h1 := ih (t := x.1.ty) (v := by assumption) h
            exact keeps_trans h1 (keeps_alloc _ h1.1)
          · exact keeps_refl h
        · split
          · exact ih h
          · exact keeps_refl h
    · exact keeps_refl hn

/-- An assembler that cannot write below `n`, nor can those it contains. -/
inductive Loose (n : Nat) : Obj → Prop where
  | mk {t : T} {w : Option Ptr} {g b : Bool} {ph : MaState} {s f : Nat} {cm : Maybe} {kids : List Obj} :
      (∀ p, w = some p → n ≤ p.1) → (∀ e, t.shape = .list e → w = none) → t ≠ .commit →
      (∀ fs, t.shape = .struct fs → ∀ (i : Nat) (k : Obj), kids[i]? = some k → ∀ e, k.ty.shape ≠ .list e) →
      (∀ (i : Nat) (k : Obj), kids[i]? = some k → Loose n k) →
      Loose n (.mk t w .parent g b ph s f cm kids)

theorem loose_park {n : Nat} {k : Obj} (h : Loose n k) : Loose n k.park := by
  cases h with
  | mk h1 h2 h3 h4 h5 => exact .mk (by intro p h; cases h) (by intros; rfl) h3 h4 h5

theorem loose_lend {n : Nat} {k : Obj} {p : Ptr} (h : Loose n k) (hp : n ≤ p.1)
    (hl : ∀ e, k.ty.shape ≠ .list e) : Loose n (k.lend (some p) .parent) := by
  cases h with
  | mk h1 h2 h3 h4 h5 =>
    exact .mk (by intro q h; cases h; exact hp) (fun e he => absurd he (hl e)) h3 h4 h5

theorem resetAll_get (ks : List Obj) (i : Nat) : (Obj.resetAll ks)[i]? = (ks[i]?).map Obj.reset := by
  induction ks generalizing i with
  | nil => simp [Obj.resetAll]
  | cons k r ih => cases i with
    | zero => simp [Obj.resetAll]
    | succ i => simp [Obj.resetAll, ih]

theorem reset_ty (o : Obj) : o.reset.ty = o.ty := by
  obtain ⟨t, w, m, g, b, ph, s, f, cm, kids⟩ := o
  unfold Obj.reset
  cases t.shape <;> rfl

theorem loose_reset {n : Nat} {k : Obj} (h : Loose n k) : Loose n k.reset := by
  induction h with
  | @mk t w g b ph s f cm kids h1 h2 h3 h4 h5 ih =>
    have h5' : ∀ (i : Nat) (k : Obj), (Obj.resetAll kids)[i]? = some k → Loose n k := by
      intro i k hk
      rw [resetAll_get] at hk
      cases hk0 : kids[i]? with
      | none => rw [hk0] at hk; cases hk
      | some k0 => rw [hk0] at hk; cases hk; exact ih i k0 hk0
    unfold Obj.reset
    cases hs : t.shape with
    | text => exact .mk h1 h2 h3 h4 h5
    | link => exact .mk h1 h2 h3 h4 h5
    | list e => exact .mk h1 h2 h3 (by rw [hs]; intro fs h; cases h) h5'
    | struct fs =>
      refine .mk h1 h2 h3 ?_ h5'
      intro fs' hfs i k hk e
      rw [resetAll_get] at hk
      cases hk0 : kids[i]? with
      | none => rw [hk0] at hk; cases hk
      | some k0 =>
        rw [hk0] at hk
        cases hk
        rw [reset_ty]
        exact h4 fs' hfs i k0 hk0 e

theorem required_of {t : T} (ht : t ≠ .commit) {fs : List FieldT} (hs : t.shape = .struct fs) {i : Nat} {fd : FieldT}
    (hf : fs[i]? = some fd) : fd.required = true := by
  have hm := List.mem_of_getElem? hf
  cases t <;> cases hs <;> first | exact absurd rfl ht | skip
  all_goals
    simp only [List.mem_cons, List.not_mem_nil, or_false] at hm
    rcases hm with rfl | hm <;> first | rfl | skip
    (repeat' (rcases hm with rfl | hm)) <;> first | rfl | (subst hm; rfl)

/-- What a call on a loose assembler leaves. -/
def Harmless (n : Nat) (a : St) (r : Out) : Prop :=
  After r fun a' => Keeps n a.mem a'.mem ∧ Loose n a'.obj

theorem loose_kids {n : Nat} {t : T} {w w' : Option Ptr} {g g' b b' : Bool} {ph ph' : MaState} {s s' f f' : Nat}
    {cm cm' : Maybe} {m : MarkAt} {kids : List Obj} (h : Loose n (.mk t w m g b ph s f cm kids))
    (hw : w' = w ∨ (∃ p, w' = some p ∧ n ≤ p.1) ∧ ∀ e, t.shape ≠ .list e) :
    Loose n (.mk t w' m g' b' ph' s' f' cm' kids) := by
  cases h with
  | mk h1 h2 h3 h4 h5 =>
    rcases hw with rfl | ⟨⟨p, rfl, hp⟩, hl⟩
    · exact .mk h1 h2 h3 h4 h5
    · exact .mk (by intro q h; cases h; exact hp) (fun e he => absurd he (hl e)) h3 h4 h5

theorem loose_modify {n : Nat} {t : T} {w : Option Ptr} {g b : Bool} {ph : MaState} {s f : Nat}
    {cm : Maybe} {m : MarkAt} {kids : List Obj} {i : Nat} {φ : Obj → Obj} (h : Loose n (.mk t w m g b ph s f cm kids))
    (hφ : ∀ k, kids[i]? = some k → Loose n k → Loose n (φ k) ∧ (φ k).ty = k.ty) :
    Loose n (.mk t w m g b ph s f cm (modifyKid φ i kids)) := by
  cases h with
  | mk h1 h2 h3 h4 h5 =>
    refine .mk h1 h2 h3 ?_ ?_
    · intro fs hfs j k hk e
      rw [modifyKid_get] at hk
      split at hk
      · rename_i hij
        subst hij
        cases hk0 : kids[i]? with
        | none => rw [hk0] at hk; cases hk
        | some k0 =>
          rw [hk0] at hk
          cases hk
          rw [(hφ k0 hk0 (h5 i k0 hk0)).2]
          exact h4 fs hfs i k0 hk0 e
      · exact h4 fs hfs j k hk e
    · intro j k hk
      rw [modifyKid_get] at hk
      split at hk
      · rename_i hij
        subst hij
        cases hk0 : kids[i]? with
        | none => rw [hk0] at hk; cases hk
        | some k0 =>
          rw [hk0] at hk
          cases hk
          exact (hφ k0 hk0 (h5 i k0 hk0)).1
      · exact h5 j k hk

theorem park_ty (o : Obj) : o.park.ty = o.ty := by cases o; rfl
theorem lend_ty (w : Option Ptr) (m : MarkAt) (o : Obj) : (o.lend w m).ty = o.ty := by cases o; rfl

theorem loose_ready {n : Nat} {a a' : St} (h : Loose n a.obj) (hr : ready false a = some a') :
    a'.mem = a.mem ∧ a'.mark = a.mark ∧ Loose n a'.obj ∧ a'.obj.ty = a.obj.ty := by
  obtain ⟨μ, mk, t, w, m, g, b, ph, s, f, cm, kids⟩ := a
  unfold ready at hr
  cases ph with
  | initial => cases hr; exact ⟨rfl, rfl, h, rfl⟩
  | midKey => cases hr
  | expectValue => cases hr
  | finished => cases hr
  | midValue =>
    simp only [Obj.ph] at hr
    simp only [tidy] at hr
    cases hs : t.shape with
    | text => rw [hs] at hr; cases hr
    | link => rw [hs] at hr; cases hr
    | list e =>
      rw [hs] at hr
      simp only at hr
      split at hr
      · cases hr
        refine ⟨rfl, rfl, ?_, rfl⟩
        refine loose_modify (loose_kids h (Or.inl rfl)) fun k _ hk => ⟨loose_reset (loose_park hk), ?_⟩
        rw [reset_ty, park_ty]
      · cases hr
    | struct fs =>
      rw [hs] at hr
      simp only at hr
      cases hfd : fs[f]? with
      | none => rw [hfd] at hr; cases hr
      | some fd =>
        have ht : t ≠ .commit := by
          have h' : Loose n (.mk t w m g b .midValue s f cm kids) := h
          cases h' with
          | mk _ _ h3 => exact h3
        rw [hfd] at hr
        simp only [required_of ht hs hfd, if_true, Bool.false_eq_true, if_false] at hr
        split at hr
        · cases hr
          refine ⟨rfl, rfl, ?_, rfl⟩
          exact loose_modify (loose_kids h (Or.inl rfl)) fun k _ hk => ⟨loose_park hk, park_ty k⟩
        · cases hr

/-- A call whether or not the client has the handle for it. -/
def rawCall (repr : Bool) (grow : Nat → Nat) (a : St) (c : Call) : Out :=
  match c with
  | .beginMap => beginMap a
  | .beginList h => beginList h a
  | .assignNull => assignNull a
  | .assignOther => .err .wrongKind a
  | .assignString b => assignString b a
  | .assignLink l => assignLink l a
  | .assignSelf t v => assignSelf t v a
  | .assembleEntry x => assembleEntry repr x a
  | .assembleKey => assembleKey repr a
  | .keyAssign x => keyAssign x a
  | .keyAssignOther => keyAssignOther a
  | .assembleValue => assembleValue repr grow a
  | .finish => finish repr a

theorem call_cases (repr : Bool) (grow : Nat → Nat) (a : St) (c : Call) :
    call repr grow a c = rawCall repr grow a c ∨ call repr grow a c = .noHandle := by
  have key : ∀ (x : Bool) (o : Out), (if x then o else .noHandle) = o ∨ (if x then o else .noHandle) = .noHandle := by
    intro x o
    cases x
    · exact Or.inr rfl
    · exact Or.inl rfl
  cases c <;> exact key _ _

theorem after_call {repr : Bool} {grow : Nat → Nat} {a : St} {c : Call} {P : St → Prop}
    (h : After (rawCall repr grow a c) P) : After (call repr grow a c) P := by
  rcases call_cases repr grow a c with he | he
  · rw [he]; exact h
  · rw [he]; exact trivial

theorem loose_raw {n : Nat} {a : St} (grow : Nat → Nat) (hn : n ≤ a.mem.next) (h : Loose n a.obj) (c : Call) :
    Harmless n a (rawCall false grow a c) := by
  have hsame : Keeps n a.mem a.mem ∧ Loose n a.obj := ⟨keeps_refl hn, h⟩
  unfold rawCall
  cases c with
  | beginMap =>
    obtain ⟨μ, mk, t, w, m, g, b, ph, s, f, cm, kids⟩ := a
    simp only [beginMap]
    cases hs : t.shape with
    | struct fs =>
      simp only
      split
      · split
        · exact ⟨keeps_refl hn, loose_kids h (Or.inl rfl)⟩
        · refine ⟨keeps_alloc _ hn, loose_kids h (Or.inr ⟨⟨_, rfl, hn⟩, ?_⟩)⟩
          intro e he
          rw [hs] at he
          cases he
      · exact trivial
    | _ => exact hsame
  | beginList x =>
    obtain ⟨μ, mk, t, w, m, g, b, ph, s, f, cm, kids⟩ := a
    simp only [beginList]
    cases hs : t.shape with
    | list e =>
      have hw : w = none := by
        have h' : Loose n (.mk t w m g b ph s f cm kids) := h
        cases h' with
        | mk _ h2 => exact h2 e hs
      subst hw
      simp only
      split
      · split
        · exact trivial
        · exact ⟨keeps_refl hn, loose_kids h (Or.inl rfl)⟩
      · exact trivial
    | _ => exact hsame
  | assignNull =>
    simp only [assignNull]
    split
    · exact hsame
    · exact trivial
  | assignOther => exact hsame
  | assignString x =>
    obtain ⟨μ, mk, t, w, m, g, b, ph, s, f, cm, kids⟩ := a
    simp only [assignString]
    split
    · split
      · exact trivial
      · split
        · rename_i p
          have hp : n ≤ p.1 := by
            have h' : Loose n (.mk t (some p) m g b ph s f cm kids) := h
            cases h' with
            | mk h1 => exact h1 p rfl
          exact ⟨keeps_write _ hn hp, h⟩
        · exact trivial
    · exact hsame
  | assignLink x =>
    obtain ⟨μ, mk, t, w, m, g, b, ph, s, f, cm, kids⟩ := a
    simp only [assignLink]
    split
    · split
      · exact trivial
      · split
        · rename_i p
          have hp : n ≤ p.1 := by
            have h' : Loose n (.mk t (some p) m g b ph s f cm kids) := h
            cases h' with
            | mk h1 => exact h1 p rfl
          exact ⟨keeps_write _ hn hp, h⟩
        · exact trivial
    · exact hsame
  | assignSelf u v =>
    obtain ⟨μ, mk, t, w, m, g, b, ph, s, f, cm, kids⟩ := a
    have hst := keeps_store (m := rank t) (t := t) (v := v) (μ := μ) hn
    have hp : ∀ p, w = some p → n ≤ p.1 := by
      have h' : Loose n (.mk t w m g b ph s f cm kids) := h
      cases h' with
      | mk h1 => exact h1
    have hwr : ∀ p, w = some p → Keeps n μ ((store (rank t) t v μ).1.write p (store (rank t) t v μ).2) :=
      fun p h => keeps_trans hst (keeps_write _ hst.1 (hp p h))
    simp only [assignSelf]
    split
    · exact trivial
    · cases hs : t.shape with
      | struct fs =>
        simp only
        split
        · split
          · rename_i p; exact ⟨hwr p rfl, h⟩
          · refine ⟨keeps_trans hst (keeps_alloc _ hst.1), loose_kids h (Or.inr ⟨⟨_, rfl, hst.1⟩, ?_⟩)⟩
            intro e he
            rw [hs] at he
            cases he
        · exact trivial
      | list e =>
        simp only
        split
        · split
          · rename_i p; exact ⟨hwr p rfl, h⟩
          · exact trivial
        · exact trivial
      | text =>
        simp only
        split
        · exact trivial
        · split
          · rename_i p; exact ⟨hwr p rfl, h⟩
          · exact trivial
      | link =>
        simp only
        split
        · exact trivial
        · split
          · rename_i p; exact ⟨hwr p rfl, h⟩
          · exact trivial
  | assembleEntry x =>
    simp only [assembleEntry]
    cases hs : a.obj.ty.shape with
    | struct fs =>
      simp only
      cases hr : ready false a with
      | none => exact trivial
      | some a' =>
        obtain ⟨h1, h2, h3, h4⟩ := loose_ready h hr
        obtain ⟨μ, mk, t, w, m, g, b, ph, s, f, cm, kids⟩ := a'
        replace h1 : μ = a.mem := h1
        replace h4 : t = a.obj.ty := h4
        subst h1
        simp only
        cases hk : takeKey fs x s with
        | panic => exact trivial
        | err e => exact ⟨keeps_refl hn, h3⟩
        | ok q =>
          obtain ⟨i, fd⟩ := q
          simp only
          have h3' := h3
          cases h3 with
          | mk l1 l2 l3 l4 l5 =>
          rw [← h4] at hs
          cases w with
          | none => exact trivial
          | some p =>
            simp only [lendField, required_of l3 hs (takeKey_ok hk).1, if_true]
            refine ⟨keeps_refl hn, loose_modify (loose_kids h3' (Or.inl rfl)) fun k hk' hl => ⟨loose_lend hl (l1 p rfl)
              (l4 fs hs i k hk'), lend_ty _ _ _⟩⟩
    | _ => exact trivial
  | assembleKey =>
    simp only [assembleKey]
    split
    · cases hr : ready false a with
      | none => exact trivial
      | some a' =>
        obtain ⟨h1, h2, h3, h4⟩ := loose_ready h hr
        obtain ⟨μ, mk, t, w, m, g, b, ph, s, f, cm, kids⟩ := a'
        replace h1 : μ = a.mem := h1
        subst h1
        exact ⟨keeps_refl hn, loose_kids h3 (Or.inl rfl)⟩
    · exact trivial
  | keyAssign x =>
    obtain ⟨μ, mk, t, w, m, g, b, ph, s, f, cm, kids⟩ := a
    simp only [keyAssign]
    split
    · split
      · exact trivial
      · split
        · exact ⟨keeps_refl hn, loose_kids h (Or.inl rfl)⟩
        · exact hsame
        · exact trivial
    · exact trivial
  | keyAssignOther =>
    simp only [keyAssignOther]
    split
    · exact hsame
    · exact trivial
  | assembleValue =>
    simp only [assembleValue]
    cases hs : a.obj.ty.shape with
    | text => exact trivial
    | link => exact trivial
    | list e =>
      simp only
      cases hr : ready false a with
      | none => exact trivial
      | some a' =>
        obtain ⟨h1, h2, h3, h4⟩ := loose_ready h hr
        obtain ⟨μ, mk, t, w, m, g, b, ph, s, f, cm, kids⟩ := a'
        replace h4 : t = a.obj.ty := h4
        cases h3 with
        | mk l1 l2 l3 l4 l5 =>
        have hw := l2 e (by rw [h4]; exact hs)
        subst hw
        exact trivial
    | struct fs =>
      obtain ⟨μ, mk, t, w, m, g, b, ph, s, f, cm, kids⟩ := a
      replace hs : t.shape = .struct fs := hs
      cases ph with
      | expectValue =>
        simp only
        cases hfd : fs[f]? with
        | none => exact trivial
        | some fd =>
          simp only
          have h' : Loose n (.mk t w m g b .expectValue s f cm kids) := h
          cases h' with
          | mk l1 l2 l3 l4 l5 =>
          cases w with
          | none => exact trivial
          | some p =>
            simp only [lendField, required_of l3 hs hfd, if_true]
            exact ⟨keeps_refl hn, loose_modify (loose_kids h (Or.inl rfl)) fun k hk' hl => ⟨loose_lend hl (l1 p rfl)
              (l4 fs hs f k hk'), lend_ty _ _ _⟩⟩
      | _ => exact trivial
  | finish =>
    simp only [finish]
    cases hs : a.obj.ty.shape with
    | text => exact trivial
    | link => exact trivial
    | list e =>
      simp only
      cases hr : ready false a with
      | none => exact trivial
      | some a' =>
        obtain ⟨h1, h2, h3, h4⟩ := loose_ready h hr
        obtain ⟨μ, mk, t, w, m, g, b, ph, s, f, cm, kids⟩ := a'
        replace h1 : μ = a.mem := h1
        subst h1
        exact ⟨keeps_refl hn, loose_kids h3 (Or.inl rfl)⟩
    | struct fs =>
      simp only
      cases hr : ready false a with
      | none => exact trivial
      | some a' =>
        obtain ⟨h1, h2, h3, h4⟩ := loose_ready h hr
        obtain ⟨μ, mk, t, w, m, g, b, ph, s, f, cm, kids⟩ := a'
        replace h1 : μ = a.mem := h1
        subst h1
        simp only
        split
        · exact ⟨keeps_refl hn, h3⟩
        · exact ⟨keeps_refl hn, loose_kids h3 (Or.inl rfl)⟩

theorem loose_call {n : Nat} {a : St} (grow : Nat → Nat) (hn : n ≤ a.mem.next) (h : Loose n a.obj) (c : Call) :
    Harmless n a (call false grow a c) :=
  after_call (loose_raw grow hn h c)

theorem ready_static {repr : Bool} {a a' : St} (hr : ready repr a = some a') :
    a'.obj.ty = a.obj.ty ∧ a'.obj.begun = a.obj.begun ∧ a'.obj.m = a.obj.m ∧ a'.mark = a.mark := by
  obtain ⟨μ, mk, t, w, m, g, b, ph, s, f, cm, kids⟩ := a
  unfold ready at hr
  cases ph with
  | initial => cases hr; exact ⟨rfl, rfl, rfl, rfl⟩
  | midKey => cases hr
  | expectValue => cases hr
  | finished => cases hr
  | midValue =>
    simp only [Obj.ph, tidy] at hr
    (repeat' split at hr) <;> cases hr <;> exact ⟨rfl, rfl, rfl, rfl⟩

/-- What no call changes. -/
theorem raw_static {repr : Bool} {grow : Nat → Nat} {a : St} (c : Call) :
    After (rawCall repr grow a c) fun a' => a'.obj.ty = a.obj.ty ∧ (Opens c ∨ a'.obj.begun = a.obj.begun) ∧
      a'.obj.m = a.obj.m := by
  have hsame : a.obj.ty = a.obj.ty ∧ (Opens c ∨ a.obj.begun = a.obj.begun) ∧ a.obj.m = a.obj.m :=
    ⟨rfl, Or.inr rfl, rfl⟩
  unfold rawCall
  cases c with
  | beginMap =>
    obtain ⟨μ, mk, t, w, m, g, b, ph, s, f, cm, kids⟩ := a
    simp only [beginMap]
    (repeat' split) <;> first | exact trivial | exact ⟨rfl, Or.inl trivial, rfl⟩
  | beginList n =>
    obtain ⟨μ, mk, t, w, m, g, b, ph, s, f, cm, kids⟩ := a
    simp only [beginList]
    (repeat' split) <;> first | exact trivial | exact ⟨rfl, Or.inl trivial, rfl⟩
  | assignNull =>
    simp only [assignNull]
    split
    · exact hsame
    · exact trivial
  | assignOther => exact hsame
  | assignString x =>
    obtain ⟨μ, mk, t, w, m, g, b, ph, s, f, cm, kids⟩ := a
    simp only [assignString]
    (repeat' split) <;> first | exact trivial | exact ⟨rfl, Or.inr rfl, rfl⟩
  | assignLink x =>
    obtain ⟨μ, mk, t, w, m, g, b, ph, s, f, cm, kids⟩ := a
    simp only [assignLink]
    (repeat' split) <;> first | exact trivial | exact ⟨rfl, Or.inr rfl, rfl⟩
  | assignSelf u v =>
    obtain ⟨μ, mk, t, w, m, g, b, ph, s, f, cm, kids⟩ := a
    simp only [assignSelf]
    (repeat' split) <;> first | exact trivial | exact ⟨rfl, Or.inr rfl, rfl⟩
  | assembleEntry x =>
    simp only [assembleEntry]
    split
    · cases hr : ready repr a with
      | none => exact trivial
      | some a' =>
        obtain ⟨h1, h2, h3, -⟩ := ready_static hr
        obtain ⟨μ, mk, t, w, m, g, b, ph, s, f, cm, kids⟩ := a'
        simp only
        (repeat' split) <;> first | exact trivial | exact ⟨h1, Or.inr h2, h3⟩
    · exact trivial
  | assembleKey =>
    simp only [assembleKey]
    split
    · cases hr : ready repr a with
      | none => exact trivial
      | some a' =>
        obtain ⟨h1, h2, h3, -⟩ := ready_static hr
        obtain ⟨μ, mk, t, w, m, g, b, ph, s, f, cm, kids⟩ := a'
        exact ⟨h1, Or.inr h2, h3⟩
    · exact trivial
  | keyAssign x =>
    obtain ⟨μ, mk, t, w, m, g, b, ph, s, f, cm, kids⟩ := a
    simp only [keyAssign]
    (repeat' split) <;> first | exact trivial | exact ⟨rfl, Or.inr rfl, rfl⟩
  | keyAssignOther =>
    simp only [keyAssignOther]
    split
    · exact hsame
    · exact trivial
  | assembleValue =>
    simp only [assembleValue]
    split
    · obtain ⟨μ, mk, t, w, m, g, b, ph, s, f, cm, kids⟩ := a
      cases ph with
      | expectValue =>
        simp only
        (repeat' split) <;> first | exact trivial | exact ⟨rfl, Or.inr rfl, rfl⟩
      | _ => exact trivial
    · cases hr : ready repr a with
      | none => exact trivial
      | some a' =>
        obtain ⟨h1, h2, h3, -⟩ := ready_static hr
        obtain ⟨μ, mk, t, w, m, g, b, ph, s, f, cm, kids⟩ := a'
        simp only
        split
        · exact trivial
        · exact ⟨h1, Or.inr h2, h3⟩
    · exact trivial
  | finish =>
    simp only [finish]
    split
    · cases hr : ready repr a with
      | none => exact trivial
      | some a' =>
        obtain ⟨h1, h2, h3, -⟩ := ready_static hr
        obtain ⟨μ, mk, t, w, m, g, b, ph, s, f, cm, kids⟩ := a'
        simp only
        split
        · exact ⟨h1, Or.inr h2, h3⟩
        · exact ⟨h1, Or.inr h2, h3⟩
    · cases hr : ready repr a with
      | none => exact trivial
      | some a' =>
        obtain ⟨h1, h2, h3, -⟩ := ready_static hr
        obtain ⟨μ, mk, t, w, m, g, b, ph, s, f, cm, kids⟩ := a'
        exact ⟨h1, Or.inr h2, h3⟩
    · exact trivial

theorem call_static {repr : Bool} {grow : Nat → Nat} {a : St} (c : Call) :
    After (call repr grow a c) fun a' => a'.obj.ty = a.obj.ty ∧ (Opens c ∨ a'.obj.begun = a.obj.begun) ∧
      a'.obj.m = a.obj.m :=
  after_call (raw_static c)

theorem after_imp {o : Out} {P Q : St → Prop} (h : After o P) (hi : ∀ a, P a → Q a) : After o Q := by
  cases o with
  | ok a => exact hi a h
  | err e a => exact hi a h
  | panic => trivial
  | noHandle => trivial

theorem after_and {o : Out} {P Q : St → Prop} (h : After o P) (h' : After o Q) : After o fun a => P a ∧ Q a := by
  cases o with
  | ok a => exact ⟨h, h'⟩
  | err e a => exact ⟨h, h'⟩
  | panic => trivial
  | noHandle => trivial

theorem putBack_static (a : St) (i : Nat) (k : St) : (putBack a i k).obj.ty = a.obj.ty ∧
    (putBack a i k).obj.begun = a.obj.begun ∧ (putBack a i k).obj.m = a.obj.m ∧ (putBack a i k).mark = a.mark ∧
    (putBack a i k).obj.w = a.obj.w ∧ (putBack a i k).obj.ph = a.obj.ph ∧
    (putBack a i k).obj.kids = a.obj.kids.set i k.obj := by
  obtain ⟨μ, mk, t, w, m, g, b, ph, s, f, cm, kids⟩ := a
  unfold putBack
  simp only
  split <;> (rename_i h1 h2; cases h1; exact ⟨rfl, rfl, rfl, rfl, rfl, rfl, rfl⟩)

theorem callAt_static {repr : Bool} {grow : Nat → Nat} {a : St} (p : List Nat) (c : Call) :
    After (callAt repr grow p c a) fun a' => a'.obj.ty = a.obj.ty ∧
      (p = [] ∧ Opens c ∨ a'.obj.begun = a.obj.begun) ∧ a'.obj.m = a.obj.m := by
  cases p with
  | nil =>
    refine after_imp (call_static c) fun a' h => ⟨h.1, ?_, h.2.2⟩
    rcases h.2.1 with h | h
    · exact Or.inl ⟨rfl, h⟩
    · exact Or.inr h
  | cons i p =>
    unfold callAt
    split
    · exact trivial
    · split
      · rename_i k' _
        have := putBack_static a i k'
        exact ⟨this.1, Or.inr this.2.1, this.2.2.1⟩
      · rename_i e k' _
        have := putBack_static a i k'
        exact ⟨this.1, Or.inr this.2.1, this.2.2.1⟩
      · exact trivial
      · exact trivial

/-- What is done to the assembler at the end of a handle. -/
def atPath (act : St → Out) : List Nat → St → Out
  | [], a => act a
  | i :: h, a =>
    match kid a i with
    | none => .noHandle
    | some k =>
      match atPath act h k with
      | .ok k => .ok (putBack a i k)
      | .err e k => .err e (putBack a i k)
      | .panic => .panic
      | .noHandle => .noHandle

theorem callAt_path (repr : Bool) (grow : Nat → Nat) (p : List Nat) (c : Call) (a : St) :
    callAt repr grow p c a = atPath (fun a => call repr grow a c) p a := by
  induction p generalizing a with
  | nil => rfl
  | cons i p ih =>
    unfold callAt atPath
    cases kid a i with
    | none => rfl
    | some k =>
      simp only [ih]
      cases atPath (fun a => call repr grow a c) p k <;> rfl

/-- Something that does no harm to what was built. `st`: also when it does not need
the handle that `BeginMap` or `BeginList` returns. -/
structure Tame (st : Bool) (act : St → Out) : Prop where
  loose : ∀ (n : Nat) (a : St), n ≤ a.mem.next → Loose n a.obj → Harmless n a (act a)
  static : ∀ a : St, After (act a) fun a' => a'.obj.ty = a.obj.ty ∧ a'.obj.m = a.obj.m
  shut : ∀ a : St, a.mark = .value →
    (parts a.obj.ty ≠ [] → st = true ∨ a.obj.begun = true → a.obj.ph = .finished) →
    (∃ e, act a = .err e a) ∨ act a = .panic ∨ act a = .noHandle

theorem path_static {st : Bool} {act : St → Out} (ha : Tame st act) (p : List Nat) (a : St) :
    After (atPath act p a) fun a' => a'.obj.ty = a.obj.ty ∧ a'.obj.m = a.obj.m := by
  cases p with
  | nil => exact ha.static a
  | cons i p =>
    unfold atPath
    split
    · exact trivial
    · split
      · rename_i k' _
        have := putBack_static a i k'
        exact ⟨this.1, this.2.2.1⟩
      · rename_i e k' _
        have := putBack_static a i k'
        exact ⟨this.1, this.2.2.1⟩
      · exact trivial
      · exact trivial

theorem loose_putBack {n : Nat} {a : St} {i : Nat} {k : Obj} (h : Loose n a.obj) (hk : a.obj.kids[i]? = some k)
    (hm : k.m = .parent) {k' : St} (h1 : Keeps n a.mem k'.mem) (h2 : Loose n k'.obj) (h3 : k'.obj.ty = k.ty)
    (h4 : k'.obj.m = k.m) : Keeps n a.mem (putBack a i k').mem ∧ Loose n (putBack a i k').obj := by
  obtain ⟨μ, mk, t, w, m, g, b, ph, s, f, cm, kids⟩ := a
  have h' : Loose n (.mk t w m g b ph s f cm kids) := h
  cases h' with
  | mk l1 l2 l3 l4 l5 =>
  replace hk : kids[i]? = some k := hk
  obtain ⟨μ', mk', k'⟩ := k'
  rw [hm] at h4
  replace h4 : k'.m = .parent := h4
  unfold putBack
  simp only [h4]
  have hget : ∀ (j : Nat) (x : Obj), (kids.set i k')[j]? = some x → (x = k' ∨ kids[j]? = some x) := by
    intro j x hx
    rw [List.getElem?_set] at hx
    split at hx
    · split at hx
      · cases hx; exact Or.inl rfl
      · cases hx
    · exact Or.inr hx
  refine ⟨h1, .mk l1 l2 l3 ?_ ?_⟩
  · intro fs hfs j x hx e
    rcases hget j x hx with rfl | hx
    · rw [show x.ty = k.ty from h3]; exact l4 fs hfs i k hk e
    · exact l4 fs hfs j x hx e
  · intro j x hx
    rcases hget j x hx with rfl | hx
    · exact h2
    · exact l5 j x hx

/-- What is reached through a loose assembler. -/
theorem loose_path {n : Nat} {st : Bool} {act : St → Out} (ha : Tame st act) {a : St} (hn : n ≤ a.mem.next)
    (h : Loose n a.obj) (p : List Nat) : Harmless n a (atPath act p a) := by
  induction p generalizing a with
  | nil => exact ha.loose n a hn h
  | cons i p ih =>
    unfold atPath
    cases hk : a.obj.kids[i]? with
    | none => simp only [kid, hk]; exact trivial
    | some k =>
      have hl : Loose n k := by
        cases h0 : a.obj with
        | mk t w m g b ph s f cm kids =>
          rw [h0] at h hk
          cases h with
          | mk l1 l2 l3 l4 l5 => exact l5 i k hk
      have hm : k.m = .parent := by cases hl; rfl
      have hkid : kid a i = some ⟨a.mem, a.obj.cm, k⟩ := by simp only [kid, hk, hm]
      rw [hkid]
      simp only
      have hr := after_and (ih (a := ⟨a.mem, a.obj.cm, k⟩) hn hl) (path_static ha p _)
      cases ho : atPath act p ⟨a.mem, a.obj.cm, k⟩ with
      | ok k' => rw [ho] at hr; exact loose_putBack h hk hm hr.1.1 hr.1.2 hr.2.1 hr.2.2
      | err e k' => rw [ho] at hr; exact loose_putBack h hk hm hr.1.1 hr.1.2 hr.2.1 hr.2.2
      | panic => exact trivial
      | noHandle => exact trivial

/-- A finished assembler: what it contains is loose, and if it is a map or list
assembler, it is finished as well, if it was begun, or (`st`) in any case. -/
structure Shut (st : Bool) (n : Nat) (o : Obj) : Prop where
  kids : ∀ (i : Nat) (k : Obj), o.kids[i]? = some k → Loose n k
  ph : parts o.ty ≠ [] → st = true ∨ o.begun = true → o.ph = .finished

/-- A call on a finished assembler itself. -/
theorem shut_call {repr : Bool} {grow : Nat → Nat} {a : St} (hm : a.mark = .value)
    (hb : parts a.obj.ty ≠ [] → a.obj.begun = true → a.obj.ph = .finished) (c : Call) :
    (∃ e, call repr grow a c = .err e a) ∨ call repr grow a c = .panic ∨ call repr grow a c = .noHandle := by
  obtain ⟨μ, mk, t, w, m, g, b, ph, s, f, cm, kids⟩ := a
  replace hm : mk = .value := hm
  subst hm
  unfold call
  by_cases hn : parts t = []
  · have hsh : t.shape = .text ∨ t.shape = .link := by
      cases hs : t.shape with
      | text => exact Or.inl rfl
      | link => exact Or.inr rfl
      | list e => exact absurd hn (parts_ne_list hs)
      | struct fs => exact absurd hn (parts_ne_struct hs)
    rcases hsh with hs | hs <;> cases g <;> cases b <;> cases c <;>
      simp [Obj.given, Obj.begun, beginMap, beginList, assignNull, assignString, assignLink, assignSelf,
        assembleEntry, assembleKey, keyAssign, keyAssignOther, assembleValue, finish, Obj.ty, hs] <;>
      (repeat' split) <;> simp_all
  · replace hb : b = true → ph = .finished := hb hn
    cases g <;> cases b <;> cases c <;>
      simp only [Obj.given, Obj.begun, if_true, Bool.false_eq_true, if_false, or_true, beginMap, beginList, assignNull,
        assignString, assignLink, assignSelf, assembleEntry, assembleKey, keyAssign, keyAssignOther, assembleValue,
        finish, ready, Obj.ph, Obj.ty] <;>
      (try (have hb : ph = .finished := hb rfl; subst hb)) <;>
      (repeat' split) <;> simp_all

theorem tame_call (grow : Nat → Nat) (c : Call) : Tame false fun a => call false grow a c where
  loose _ _ hn h := loose_call grow hn h c
  static a := after_imp (call_static c) fun a' h => ⟨h.1, h.2.2⟩
  shut _ hm hb := shut_call hm (fun hn h => hb hn (Or.inr h)) c

theorem tame_mono {act : St → Out} (h : Tame false act) : Tame true act where
  loose := h.loose
  static := h.static
  shut a hm hb := h.shut a hm fun hn hx => hb hn (hx.elim (fun h => by cases h) Or.inr)

theorem tame_calls (st : Bool) (grow : Nat → Nat) (c : Call) : Tame st fun a => call false grow a c := by
  cases st
  · exact tame_call grow c
  · exact tame_mono (tame_call grow c)

/-- Calls through a loose assembler. -/
theorem loose_callAt {n : Nat} {a : St} (grow : Nat → Nat) (hn : n ≤ a.mem.next) (h : Loose n a.obj) (p : List Nat)
    (c : Call) : Harmless n a (callAt false grow p c a) := by
  rw [callAt_path]
  exact loose_path (tame_call grow c) hn h p

/-- What is done to a finished assembler or through it. -/
theorem shut_path {n : Nat} {st : Bool} {act : St → Out} (ha : Tame st act) {a : St} (hn : n ≤ a.mem.next)
    (hm : a.mark = .value) (h : Shut st n a.obj) (p : List Nat) :
    After (atPath act p a) fun a' => Keeps n a.mem a'.mem ∧ a'.mark = .value ∧ Shut st n a'.obj := by
  cases p with
  | nil =>
    rcases ha.shut a hm h.ph with ⟨e, he⟩ | he | he
    · simp only [atPath, he]; exact ⟨keeps_refl hn, hm, h⟩
    · simp only [atPath, he]; exact trivial
    · simp only [atPath, he]; exact trivial
  | cons i p =>
    unfold atPath
    cases hk : a.obj.kids[i]? with
    | none => simp only [kid, hk]; exact trivial
    | some k =>
      have hl := h.kids i k hk
      have hkm : k.m = .parent := by cases hl; rfl
      have hkid : kid a i = some ⟨a.mem, a.obj.cm, k⟩ := by simp only [kid, hk, hkm]
      rw [hkid]
      simp only
      have hr := after_and (loose_path ha (a := ⟨a.mem, a.obj.cm, k⟩) hn hl p) (path_static ha p _)
      have key : ∀ k' : St, (Keeps n a.mem k'.mem ∧ Loose n k'.obj) ∧ k'.obj.ty = k.ty ∧
          k'.obj.m = k.m →
          Keeps n a.mem (putBack a i k').mem ∧ (putBack a i k').mark = .value ∧ Shut st n (putBack a i k').obj := by
        rintro ⟨μ', mk', k'⟩ ⟨⟨h1, h2⟩, h3, h4⟩
        rw [hkm] at h4
        replace h4 : k'.m = .parent := h4
        obtain ⟨s1, s2, s3, s4, s5, s6, s7⟩ := putBack_static a i ⟨μ', mk', k'⟩
        refine ⟨?_, s4.trans hm, ?_, ?_⟩
        · obtain ⟨μ, mk, t, w, m, g, b, ph, s, f, cm, kids⟩ := a
          unfold putBack
          simp only [h4]
          exact h1
        · rw [s7]
          intro j x hx
          rw [List.getElem?_set] at hx
          split at hx
          · split at hx
            · cases hx; exact h2
            · cases hx
          · exact h.kids j x hx
        · rw [s1, s2, s6]; exact h.ph
      cases ho : atPath act p ⟨a.mem, a.obj.cm, k⟩ with
      | ok k' => rw [ho] at hr; exact key k' hr
      | err e k' => rw [ho] at hr; exact key k' hr
      | panic => exact trivial
      | noHandle => exact trivial

/-- An assembler of an optional field that was given: its mark is in memory that does
not change. -/
def Sealed (st : Bool) (n : Nat) (μ : Mem) (k : Obj) : Prop :=
  Shut st n k ∧ ∃ q x, k.m = .mem q ∧ q.1 < n ∧ Valid q.2 (μ.at' q.1) ∧ μ.read q = .maybe .value x

/-- A builder that has built: nothing below `n` has changed since `μ`. -/
structure Still (st : Bool) (n : Nat) (μ : Mem) (p : Ptr) (t : T) (a : St) : Prop where
  ty : a.obj.ty = t
  mark : a.mark = .value
  w : a.obj.w = some p
  mem : Keeps n μ a.mem
  ph : parts a.obj.ty ≠ [] → st = true ∨ a.obj.begun = true → a.obj.ph = .finished
  kids : ∀ (i : Nat) (k : Obj), a.obj.kids[i]? = some k → Loose n k ∨ Sealed st n μ k

theorem still_path {n : Nat} {μ : Mem} {p : Ptr} {t : T} {st : Bool} {act : St → Out} (ha : Tame st act) {a : St}
    (h : Still st n μ p t a) (h' : List Nat) : After (atPath act h' a) (Still st n μ p t) := by
  cases h' with
  | nil =>
    rcases ha.shut a h.mark h.ph with ⟨e, he⟩ | he | he
    · simp only [atPath, he]; exact h
    · simp only [atPath, he]; exact trivial
    · simp only [atPath, he]; exact trivial
  | cons i r =>
    unfold atPath
    cases hk : a.obj.kids[i]? with
    | none => simp only [kid, hk]; exact trivial
    | some k =>
      have hset : ∀ (k' : Obj), Loose n k' ∨ Sealed st n μ k' → ∀ (j : Nat) (x : Obj),
          (a.obj.kids.set i k')[j]? = some x → Loose n x ∨ Sealed st n μ x := by
        intro k' hk' j x hx
        rw [List.getElem?_set] at hx
        split at hx
        · split at hx
          · cases hx; exact hk'
          · cases hx
        · exact h.kids j x hx
      have build : ∀ x : St, Keeps n μ (putBack a i x).mem → (Loose n x.obj ∨ Sealed st n μ x.obj) →
          Still st n μ p t (putBack a i x) := by
        intro x h1 h2
        obtain ⟨s1, s2, s3, s4, s5, s6, s7⟩ := putBack_static a i x
        refine ⟨s1.trans h.ty, s4.trans h.mark, s5.trans h.w, h1, ?_, ?_⟩
        · rw [s1, s2, s6]; exact h.ph
        · rw [s7]; exact hset x.obj h2
      rcases h.kids i k hk with hl | ⟨hsh, q, x, hkm, hq, hv, hx⟩
      · have hkm : k.m = .parent := by cases hl; rfl
        have hkid : kid a i = some ⟨a.mem, a.obj.cm, k⟩ := by simp only [kid, hk, hkm]
        rw [hkid]
        simp only
        have hr := after_and (loose_path ha (a := ⟨a.mem, a.obj.cm, k⟩) h.mem.1 hl r) (path_static ha r _)
        have key : ∀ k' : St, (Keeps n a.mem k'.mem ∧ Loose n k'.obj) ∧ k'.obj.ty = k.ty ∧
            k'.obj.m = k.m → Still st n μ p t (putBack a i k') := by
          rintro ⟨μ', mk', k'⟩ ⟨⟨h1, h2⟩, h3, h4⟩
          rw [hkm] at h4
          replace h4 : k'.m = .parent := h4
          refine build _ ?_ (Or.inl h2)
          have : (putBack a i ⟨μ', mk', k'⟩).mem = μ' := by
            obtain ⟨μ, mk, t, w, m, g, b, ph, s, f, cm, kids⟩ := a
            unfold putBack
            simp only [h4]
          rw [this]
          exact keeps_trans h.mem h1
        cases ho : atPath act r ⟨a.mem, a.obj.cm, k⟩ with
        | ok k' => rw [ho] at hr; exact key k' hr
        | err e k' => rw [ho] at hr; exact key k' hr
        | panic => exact trivial
        | noHandle => exact trivial
      · have hread : ∀ μ', Keeps n μ μ' → μ'.read q = .maybe .value x := by
          intro μ' hk
          unfold Mem.read
          rw [hk.2 q.1 hq]
          exact hx
        have hkid : kid a i = some ⟨a.mem, .value, k⟩ := by
          simp only [kid, hk, hkm, Mem.mark, hread _ h.mem]
        rw [hkid]
        simp only
        have hr := after_and (shut_path ha (a := ⟨a.mem, .value, k⟩) h.mem.1 rfl hsh r) (path_static ha r _)
        have key : ∀ k' : St, (Keeps n a.mem k'.mem ∧ k'.mark = .value ∧ Shut st n k'.obj) ∧ k'.obj.ty = k.ty ∧
            k'.obj.m = k.m → Still st n μ p t (putBack a i k') := by
          rintro ⟨μ', mk', k'⟩ ⟨⟨h1, h5, h2⟩, h3, h4⟩
          rw [hkm] at h4
          replace h4 : k'.m = .mem q := h4
          replace h5 : mk' = .value := h5
          subst h5
          have hmem := keeps_trans h.mem h1
          refine build _ ?_ (Or.inr ⟨h2, q, x, h4, hq, hv, hx⟩)
          have hpb : (putBack a i ⟨μ', .value, k'⟩).mem = μ'.setMark q .value := by
            obtain ⟨μ, mk, t, w, m, g, b, ph, s, f, cm, kids⟩ := a
            unfold putBack
            simp only [h4]
          have hsame : μ'.setMark q .value = μ' := by
            have hrd := hread μ' hmem
            unfold Mem.setMark
            rw [hrd]
            simp only
            obtain ⟨at', nx⟩ := μ'
            unfold Mem.write
            congr 1
            funext r'
            by_cases hr' : r' = q.1
            · subst hr'
              rw [if_pos rfl]
              simp only
              have he : at' q.1 = μ.at' q.1 := hmem.2 q.1 hq
              rw [he]
              have hx' : (μ.at' q.1).get q.2 = .maybe .value x := hx
              rw [← hx']
              exact set_get hv
            · rw [if_neg hr']
          rw [hpb, hsame]
          exact hmem
        cases ho : atPath act r ⟨a.mem, .value, k⟩ with
        | ok k' => rw [ho] at hr; exact key k' hr
        | err e k' => rw [ho] at hr; exact key k' hr
        | panic => exact trivial
        | noHandle => exact trivial

theorem still_run {n : Nat} {μ : Mem} {p : Ptr} {t : T} {a a' : St} {st : Bool} (grow : Nat → Nat) (h : Still st n μ p t a)
    {cs good : List (List Nat × Call)} (hr : run false grow a cs = some (a', good)) : Still st n μ p t a' := by
  induction cs generalizing a good with
  | nil => cases hr; exact h
  | cons x r ih =>
    obtain ⟨q, c⟩ := x
    have hs := still_path (tame_calls st grow c) h q
    rw [← callAt_path] at hs
    simp only [run] at hr
    cases ho : callAt false grow q c a with
    | ok y =>
      rw [ho] at hs hr
      simp only at hr
      cases hr1 : run false grow y r with
      | none => rw [hr1] at hr; cases hr
      | some z =>
        rw [hr1] at hr
        cases hr
        exact ih hs hr1
    | err e y =>
      rw [ho] at hs hr
      exact ih hs hr
    | panic => rw [ho] at hr; cases hr
    | noHandle => rw [ho] at hr; cases hr

/-- The value is still there. -/
theorem still_build {n : Nat} {μ : Mem} {p : Ptr} {t : T} {v : Val} {F : Foot} {a : St} {st : Bool} (h : Still st n μ p t a)
    (hp : p.1 < n) (hF : ∀ r, F r → r < n) (hv : Complete t v) (hr : RepT μ t v (μ.read p) F) :
    build a = .ok v := by
  unfold build
  rw [if_pos h.mark, h.w, h.ty]
  simp only
  congr 1
  have he : a.mem.read p = μ.read p := by
    unfold Mem.read
    rw [h.mem.2 p.1 hp]
  rw [he]
  exact load_rep (Nat.le_refl _) hv (repT_frame hr (fun _ h => h) fun r hr => h.mem.2 r (hF r hr))

end Verif.Handles
