import Verif.Proofs.Reset
import Verif.Proofs.Foreign
import Verif.Spec.Foreign

/-! What no call changes about the assemblers, and what that means for `Reset`. -/

namespace Verif.Handles

open Calls Spec

variable {z : Bool}

/-- The second assembler contains the same assemblers as the first, and, if `z`, none
that has lost its mark. -/
inductive Kin (z : Bool) : Obj → Obj → Prop where
  | mk {t : T} {w w' : Option Ptr} {m m' : MarkAt} {g g' b b' : Bool} {ph ph' : MaState} {s s' f f' : Nat}
      {cm cm' : Maybe} {kids kids' : List Obj} : (z = true → m'.isNil = true → m.isNil = true) → kids.length = kids'.length →
      (∀ (i : Nat) (k k' : Obj), kids[i]? = some k → kids'[i]? = some k' → Kin z k k') →
      Kin z (.mk t w m g b ph s f cm kids) (.mk t w' m' g' b' ph' s' f' cm' kids')

theorem kin_refl (o : Obj) : Kin z o o := by
  induction o using Obj.rec (motive_2 := fun l => ∀ (i : Nat) (k : Obj), l[i]? = some k → Kin z k k) with
  | mk t w m g b ph s f cm kids ih =>
    refine .mk (fun _ h => h) rfl fun i k k' h h' => ?_
    rw [h] at h'
    cases h'
    exact ih i k h
  | nil i k h => cases h
  | cons o r h1 h2 i k h =>
    cases i with
    | zero => cases h; exact h1
    | succ i => exact h2 i k h

theorem kin_trans {o o' o'' : Obj} (h : Kin z o o') (h' : Kin z o' o'') : Kin z o o'' := by
  induction h generalizing o'' with
  | mk h1 h2 _ ih =>
    cases h' with
    | mk h4 h5 h6 =>
      refine .mk (fun hx h => h1 hx (h4 hx h)) (h2.trans h5) fun i k k'' hk hk'' => ?_
      obtain ⟨k', hk'⟩ := objR_kid (lo := 0) (δ := 0) (n := 0) h2 hk
      exact ih i k k' hk hk' (h6 i k' k'' hk' hk'')

theorem kids_refl (kids : List Obj) :
    ∀ (i : Nat) (k k' : Obj), kids[i]? = some k → kids[i]? = some k' → Kin z k k' := by
  intro i k k' h h'
  rw [h] at h'
  cases h'
  exact kin_refl k

theorem kids_set {kids : List Obj} {j : Nat} {k0 y : Obj} (hk : kids[j]? = some k0) (hy : Kin z k0 y) :
    ∀ (i : Nat) (x x' : Obj), kids[i]? = some x → (kids.set j y)[i]? = some x' → Kin z x x' := by
  intro i x x' hx hx'
  rw [List.getElem?_set] at hx'
  by_cases hij : j = i
  · subst hij
    rw [hk] at hx
    cases hx
    rw [if_pos rfl] at hx'
    split at hx'
    · cases hx'; exact hy
    · cases hx'
  · rw [if_neg hij] at hx'
    exact kids_refl kids i x x' hx hx'

theorem kids_modify (kids : List Obj) (j : Nat) {φ : Obj → Obj} (hy : ∀ k, Kin z k (φ k)) :
    kids.length = (modifyKid φ j kids).length ∧
    ∀ (i : Nat) (x x' : Obj), kids[i]? = some x → (modifyKid φ j kids)[i]? = some x' → Kin z x x' := by
  refine ⟨by rw [modifyKid_length], ?_⟩
  unfold modifyKid
  cases hk : kids[j]? with
  | none => exact kids_refl kids
  | some k => exact kids_set hk (hy k)

theorem kin_lend {w : Option Ptr} {m : MarkAt} (hm : m.isNil = false) (k : Obj) : Kin z k (k.lend w m) := by
  cases k
  exact .mk (fun _ h => by rw [hm] at h; cases h) rfl (kids_refl _)

theorem kin_park (k : Obj) : Kin z k k.park := by
  cases k
  exact .mk (fun _ h => h) rfl (kids_refl _)

theorem kin_reset (k : Obj) : Kin z k k.reset := by
  induction k using Obj.rec (motive_2 := fun l => ∀ (i : Nat) (k k' : Obj), l[i]? = some k →
    (Obj.resetAll l)[i]? = some k' → Kin z k k') with
  | mk t w m g b ph s f cm kids ih =>
    unfold Obj.reset
    cases t.shape with
    | text => exact kin_refl _
    | link => exact kin_refl _
    | list e => exact .mk (fun _ h => h) (resetAll_length kids).symm ih
    | struct fs => exact .mk (fun _ h => h) (resetAll_length kids).symm ih
  | nil i k k' h => cases h
  | cons o r h1 h2 i k k' h h' =>
    cases i with
    | zero => cases h; cases h'; exact h1
    | succ i => exact h2 i k k' h h'

theorem ready_kin {repr : Bool} {a a' : St} (hr : ready repr a = some a') : Kin z a.obj a'.obj := by
  obtain ⟨μ, mk, t, w, m, g, b, ph, s, f, cm, kids⟩ := a
  unfold ready at hr
  cases ph with
  | initial => cases hr; exact kin_refl _
  | midKey => cases hr
  | expectValue => cases hr
  | finished => cases hr
  | midValue =>
    have hp := kids_modify (z := z) kids f kin_park
    have hq := kids_modify (z := z) kids 0 (φ := fun o => o.park.reset) fun k => kin_trans (kin_park k) (kin_reset _)
    cases repr <;> simp only [Obj.ph, tidy] at hr <;> (repeat' split at hr) <;> cases hr <;>
      first | exact .mk (fun _ h => h) rfl (kids_refl _) | exact .mk (fun _ h => h) hp.1 hp.2 | exact .mk (fun _ h => h) hq.1 hq.2

theorem lendField_mark {fd : FieldT} {i : Nat} {μ : Mem} {w kw : Option Ptr} {km : MarkAt}
    (h : lendField fd i μ w = some (kw, km)) : km.isNil = false := by
  unfold lendField at h
  (repeat' split at h) <;> cases h <;> rfl

theorem raw_kin {repr : Bool} {grow : Nat → Nat} {a : St} (c : Call) :
    After (rawCall repr grow a c) fun a' => Kin z a.obj a'.obj := by
  have hsame : Kin z a.obj a.obj := kin_refl _
  unfold rawCall
  cases c with
  | beginMap =>
    obtain ⟨μ, mk, t, w, m, g, b, ph, s, f, cm, kids⟩ := a
    simp only [beginMap]
    (repeat' split) <;> first | exact trivial | exact .mk (fun _ h => h) rfl (kids_refl _)
  | beginList n =>
    obtain ⟨μ, mk, t, w, m, g, b, ph, s, f, cm, kids⟩ := a
    simp only [beginList]
    (repeat' split) <;> first | exact trivial | exact .mk (fun _ h => h) rfl (kids_refl _)
  | assignNull =>
    simp only [assignNull]
    split
    · exact hsame
    · exact trivial
  | assignOther => exact hsame
  | assignString x =>
    obtain ⟨μ, mk, t, w, m, g, b, ph, s, f, cm, kids⟩ := a
    simp only [assignString]
    (repeat' split) <;> first | exact trivial | exact .mk (fun _ h => h) rfl (kids_refl _)
  | assignLink x =>
    obtain ⟨μ, mk, t, w, m, g, b, ph, s, f, cm, kids⟩ := a
    simp only [assignLink]
    (repeat' split) <;> first | exact trivial | exact .mk (fun _ h => h) rfl (kids_refl _)
  | assignSelf u v =>
    obtain ⟨μ, mk, t, w, m, g, b, ph, s, f, cm, kids⟩ := a
    simp only [assignSelf]
    (repeat' split) <;> first | exact trivial | exact .mk (fun _ h => h) rfl (kids_refl _)
  | assembleEntry x =>
    simp only [assembleEntry]
    split
    · cases hr : ready repr a with
      | none => exact trivial
      | some a' =>
        have hk := ready_kin (z := z) hr
        obtain ⟨μ, mk, t, w, m, g, b, ph, s, f, cm, kids⟩ := a'
        simp only
        split
        · rename_i i fd _
          cases hl : lendField fd i μ w with
          | none => exact trivial
          | some q =>
            obtain ⟨kw, km⟩ := q
            obtain ⟨h1, h2⟩ := kids_modify (z := z) kids i (kin_lend (w := kw) (lendField_mark hl))
            exact kin_trans hk (.mk (fun _ h => h) h1 h2)
        · exact hk
        · exact trivial
    · exact trivial
  | assembleKey =>
    simp only [assembleKey]
    split
    · cases hr : ready repr a with
      | none => exact trivial
      | some a' =>
        have hk := ready_kin (z := z) hr
        obtain ⟨μ, mk, t, w, m, g, b, ph, s, f, cm, kids⟩ := a'
        exact kin_trans hk (.mk (fun _ h => h) rfl (kids_refl _))
    · exact trivial
  | keyAssign x =>
    obtain ⟨μ, mk, t, w, m, g, b, ph, s, f, cm, kids⟩ := a
    simp only [keyAssign]
    (repeat' split) <;> first | exact trivial | exact .mk (fun _ h => h) rfl (kids_refl _)
  | keyAssignOther =>
    simp only [keyAssignOther]
    split
    · exact hsame
    · exact trivial
  | assembleValue =>
    simp only [assembleValue]
    split
    · rename_i fs _
      obtain ⟨μ, mk, t, w, m, g, b, ph, s, f, cm, kids⟩ := a
      cases ph with
      | expectValue =>
        simp only
        cases fs[f]? with
        | none => exact trivial
        | some fd =>
          simp only
          cases hl : lendField fd f μ w with
          | none => exact trivial
          | some q =>
            obtain ⟨kw, km⟩ := q
            obtain ⟨h1, h2⟩ := kids_modify (z := z) kids f (kin_lend (w := kw) (lendField_mark hl))
            exact .mk (fun _ h => h) h1 h2
      | _ => exact trivial
    · cases hr : ready repr a with
      | none => exact trivial
      | some a' =>
        have hk := ready_kin (z := z) hr
        obtain ⟨μ, mk, t, w, m, g, b, ph, s, f, cm, kids⟩ := a'
        simp only
        split
        · exact trivial
        · rename_i row _
          obtain ⟨h1, h2⟩ := kids_modify (z := z) kids 0 (kin_lend (w := some row) (m := .parent) rfl)
          exact kin_trans hk (.mk (fun _ h => h) h1 h2)
    · exact trivial
  | finish =>
    simp only [finish]
    split
    · cases hr : ready repr a with
      | none => exact trivial
      | some a' =>
        have hk := ready_kin (z := z) hr
        obtain ⟨μ, mk, t, w, m, g, b, ph, s, f, cm, kids⟩ := a'
        simp only
        split
        · exact hk
        · exact kin_trans hk (.mk (fun _ h => h) rfl (kids_refl _))
    · cases hr : ready repr a with
      | none => exact trivial
      | some a' =>
        have hk := ready_kin (z := z) hr
        obtain ⟨μ, mk, t, w, m, g, b, ph, s, f, cm, kids⟩ := a'
        exact kin_trans hk (.mk (fun _ h => h) rfl (kids_refl _))
    · exact trivial

theorem putBack_kin {a k : St} {i : Nat} {k0 : Obj} (hi : a.obj.kids[i]? = some k0) (hk : Kin z k0 k.obj) :
    Kin z a.obj (putBack a i k).obj := by
  obtain ⟨μ, mk, t, w, m, g, b, ph, s, f, cm, kids⟩ := a
  replace hi : kids[i]? = some k0 := hi
  unfold putBack
  simp only
  cases k.obj.m <;> exact .mk (fun _ h => h) (by simp) (kids_set hi hk)

theorem walk_kin (repr : Bool) (grow : Nat → Nat) :
    Walk repr grow (fun _ => True) fun a b => Kin z a.obj b.obj where
  refl _ _ := kin_refl _
  trans _ _ _ h h' := kin_trans h h'
  step _ c _ := after_imp (raw_kin c) fun _ h => ⟨trivial, h⟩
  kid _ _ _ _ _ := trivial
  back a i k k' _ hk _ h := by
    unfold Handles.kid at hk
    split at hk
    · cases hk
    · rename_i o ho
      cases hk
      exact ⟨trivial, putBack_kin ho h⟩

theorem deedAt_kin {repr : Bool} {grow : Nat → Nat} {a : St} (p : List Nat) (d : Deed) :
    After (deedAt repr grow p d a) fun a' => Kin z a.obj a'.obj := by
  have w := walk_kin (z := z) repr grow
  induction p generalizing a with
  | nil =>
    cases d with
    | call c => exact after_call (raw_kin c)
    | node n =>
      show After (assign repr grow n a) _
      unfold assign
      split
      · exact after_imp (walk_nd w n a trivial) fun _ h => h.2
      · trivial
  | cons i p ih =>
    cases d with
    | call c =>
      refine after_imp (P := fun b => True ∧ Kin z a.obj b.obj) ?_ fun _ h => h.2
      exact walk_kid w (act := callAt repr grow p c) (fun b _ => after_imp ih fun _ h => ⟨trivial, h⟩) a i trivial
    | node n =>
      refine after_imp (P := fun b => True ∧ Kin z a.obj b.obj) ?_ fun _ h => h.2
      exact walk_kid w (act := assignAt repr grow n p) (fun b _ => after_imp ih fun _ h => ⟨trivial, h⟩) a i trivial

/-! ## `Reset` -/

theorem clearAll_get (l : List Obj) (i : Nat) : (Obj.clearAll l)[i]? = (l[i]?).map Obj.clear := by
  induction l generalizing i with
  | nil => simp [Obj.clearAll]
  | cons k r ih => cases i with
    | zero => simp [Obj.clearAll]
    | succ i => simp [Obj.clearAll, ih]

theorem clearAll_length (l : List Obj) : (Obj.clearAll l).length = l.length := by
  induction l with
  | nil => rfl
  | cons a r ih => simp [Obj.clearAll, ih]

theorem clear_ty (o : Obj) : o.clear.ty = o.ty := by cases o; rfl

theorem clear_r {lo δ n : Nat} {o o' : Obj} (h : ObjR lo δ n o o') : ObjR lo δ n o.clear o'.clear := by
  induction h with
  | @mk t w w' m m' g g' b b' ph s f cm kids kids' h1 h2 h3 h4 h5 h6 h7 ih =>
    refine .mk trivial trivial (fun _ => rfl) h4 h5 (by rw [clearAll_length, clearAll_length, h6]) ?_
    intro i k k' hk hk'
    rw [clearAll_get] at hk hk'
    cases hk0 : kids[i]? with
    | none => rw [hk0] at hk; cases hk
    | some k0 =>
      cases hk1 : kids'[i]? with
      | none => rw [hk1] at hk'; cases hk'
      | some k1 =>
        rw [hk0] at hk
        rw [hk1] at hk'
        cases hk
        cases hk'
        exact ih i k0 k1 hk0 hk1

/-- `Reset` on both. -/
theorem reset_r {lo δ : Nat} {a a' : St} (h : StR lo δ a a') : Goes lo δ a a' (reset a) (reset a') := by
  have ht := (objR_same h.obj).1
  unfold reset
  rw [ht]
  have hst := step_alloc h.mem (valR_zero (rank a.obj.ty) a.obj.ty)
  refine ⟨⟨hst.mem, rfl, ?_⟩, hst⟩
  exact objR_lend (w := some (a.mem.next, [])) (w' := some (a'.mem.next, [])) (m := .builder) (m' := .builder)
    ⟨h.mem.low, Nat.lt_succ_self _, by rw [h.mem.next]⟩ trivial rfl _ _ (objR_mono hst.mono (clear_r h.obj))

/-- A cleared assembler is like itself, wherever it may be. -/
theorem clear_self {lo δ n : Nat} (o : Obj) : ObjR lo δ n o.clear o.clear := by
  induction o using Obj.rec (motive_2 := fun l => ∀ (i : Nat) (k k' : Obj), (Obj.clearAll l)[i]? = some k →
    (Obj.clearAll l)[i]? = some k' → ObjR lo δ n k k') with
  | mk t w m g b ph s f cm kids ih => exact .mk trivial trivial (fun _ => rfl) id id rfl ih
  | nil i k k' h => cases h
  | cons o r h1 h2 i k k' h h' =>
    cases i with
    | zero => cases h; cases h'; exact h1
    | succ i => exact h2 i k k' h h'

/-- An assembler that is new is like one that was cleared. -/
theorem new_clear {lo δ n k : Nat} {t : T} {o : Obj} (h : Kin z (newObj k t) o) :
    ObjR lo δ n (newObj k t) o.clear := by
  induction k generalizing t o with
  | zero =>
    cases h with
    | mk h1 h2 h3 =>
      refine .mk trivial trivial (by intro h; rcases h with h | h <;> cases h) (by intro h; cases h)
        (by intro h; cases h) (by rw [clearAll_length, ← h2]) ?_
      intro i k k' h
      cases h
  | succ k ih =>
    cases h with
    | mk h1 h2 h3 =>
      refine .mk trivial trivial (by intro h; rcases h with h | h <;> cases h) (by intro h; cases h)
        (by intro h; cases h) (by rw [clearAll_length, ← h2]) ?_
      intro i x x' hx hx'
      rw [clearAll_get] at hx'
      rename_i kids'
      cases hk : kids'[i]? with
      | none => rw [hk] at hx'; cases hx'
      | some k1 =>
        rw [hk] at hx'
        cases hx'
        have := h3 i x k1 hx hk
        cases hs : t.shape with
        | text => rw [hs] at hx; cases hx
        | link => rw [hs] at hx; cases hx
        | list e =>
          rw [hs] at hx
          cases i with
          | zero => cases hx; exact ih this
          | succ i => cases hx
        | struct fs =>
          rw [hs] at hx
          dsimp only at hx
          rw [List.getElem?_map] at hx
          cases hf : fs[i]? with
          | none => rw [hf] at hx; cases hx
          | some fd => rw [hf] at hx; cases hx; exact ih this

theorem new_self {lo δ n k : Nat} {t : T} : ObjR lo δ n (newObj k t) (newObj k t) := by
  induction k generalizing t with
  | zero =>
    refine .mk trivial trivial (fun _ => rfl) id id rfl ?_
    intro i k k' h
    cases h
  | succ k ih =>
    refine .mk trivial trivial (fun _ => rfl) id id rfl ?_
    intro i x x' hx hx'
    rw [hx] at hx'
    cases hx'
    cases hs : t.shape with
    | text => rw [hs] at hx; cases hx
    | link => rw [hs] at hx; cases hx
    | list e =>
      rw [hs] at hx
      cases i with
      | zero => cases hx; exact ih
      | succ i => cases hx
    | struct fs =>
      rw [hs] at hx
      dsimp only at hx
      rw [List.getElem?_map] at hx
      cases hf : fs[i]? with
      | none => rw [hf] at hx; cases hx
      | some fd => rw [hf] at hx; cases hx; exact ih

/-- A new builder. -/
theorem builder_self (t : T) : StR 0 0 (builder t) (builder t) :=
  ⟨⟨Nat.zero_le _, rfl, fun _ _ _ => valR_zero _ _⟩, rfl,
    objR_lend (w := some (0, [])) (w' := some (0, [])) (m := .builder) (m' := .builder)
      ⟨Nat.le_refl _, Nat.zero_lt_one, rfl⟩ trivial rfl _ _ new_self⟩

/-- A builder that was reset, as the memory from then on shows it. -/
theorem reset_self (a : St) : StR a.mem.next 0 (reset a) (reset a) := by
  refine ⟨⟨Nat.le_succ _, rfl, fun r h1 h2 => ?_⟩, rfl, ?_⟩
  · replace h2 : r < a.mem.next + 1 := h2
    have : r = a.mem.next := by omega
    subst this
    show ValR _ _ _ (if a.mem.next = a.mem.next then T.zeroM a.obj.ty else a.mem.at' a.mem.next)
      (if a.mem.next = a.mem.next then T.zeroM a.obj.ty else a.mem.at' a.mem.next)
    rw [if_pos rfl]
    exact valR_zero _ _
  · exact objR_lend (w := some (a.mem.next, [])) (w' := some (a.mem.next, [])) (m := .builder) (m' := .builder)
      ⟨Nat.le_refl _, Nat.lt_succ_self _, rfl⟩ trivial rfl _ _ (clear_self _)

/-- A new builder is like one that was reset. -/
theorem builder_reset {t : T} {a : St} (h : Kin z (newObj (rank t) t) a.obj) :
    StR 0 a.mem.next (builder t) (reset a) := by
  have ht : a.obj.ty = t := by
    have : ∀ {k : Nat} {o : Obj}, Kin z (newObj k t) o → o.ty = t := by
      intro k o h
      cases k <;> cases h <;> rfl
    exact this h
  refine ⟨⟨Nat.zero_le _, Nat.add_comm _ _, fun r h1 h2 => ?_⟩, rfl, ?_⟩
  · replace h2 : r < 1 := h2
    have : r = 0 := by omega
    subst this
    show ValR _ _ _ (T.zeroM t) (if 0 + a.mem.next = a.mem.next then T.zeroM a.obj.ty else _)
    rw [if_pos (Nat.zero_add _), ht]
    exact valR_zero _ _
  · exact objR_lend (w := some (0, [])) (w' := some (a.mem.next, [])) (m := .builder) (m' := .builder)
      ⟨Nat.le_refl _, Nat.zero_lt_one, by rw [Nat.zero_add]⟩ trivial rfl _ _ (new_clear h)

/-! ## What clients do -/

theorem withoutMark_after {d : Deed} {o : Out} {P : St → Prop} (h : After o P) : After (withoutMark d o) P := by
  cases o <;> cases d with
    | call c => cases c <;> first | exact h | exact trivial
    | node n => cases n <;> first | exact h | exact trivial

theorem deedAfter_kin {repr : Bool} {grow : Nat → Nat} {a : St} (p : List Nat) (d : Deed) :
    After (deedAfter repr grow p d a) fun a' => Kin z a.obj a'.obj := by
  unfold deedAfter
  split
  · exact withoutMark_after (deedAt_kin p d)
  · exact deedAt_kin p d

theorem kin_clear (o : Obj) : Kin false o o.clear := by
  induction o using Obj.rec (motive_2 := fun l => ∀ (i : Nat) (k k' : Obj), l[i]? = some k →
    (Obj.clearAll l)[i]? = some k' → Kin false k k') with
  | mk t w m g b ph s f cm kids ih => exact .mk (fun h => by cases h) (clearAll_length kids).symm ih
  | nil i k k' h => cases h
  | cons o r h1 h2 i k k' h h' =>
    cases i with
    | zero => cases h; cases h'; exact h1
    | succ i => exact h2 i k k' h h'

theorem kin_lend' {w : Option Ptr} {m : MarkAt} (k : Obj) : Kin false k (k.lend w m) := by
  cases k
  exact .mk (fun h => by cases h) rfl (kids_refl _)

theorem kin_weaken {o o' : Obj} (h : Kin true o o') : Kin z o o' := by
  induction h with
  | mk h1 h2 _ ih => exact .mk (fun _ => h1 rfl) h2 ih

theorem acts_kin {repr : Bool} {grow : Nat → Nat} {a b : St} {l g : List Act} (h : acts repr grow a l = some (b, g)) :
    Kin false a.obj b.obj := by
  induction l generalizing a b g with
  | nil => cases h; exact kin_refl _
  | cons x r ih =>
    cases x with
    | reset =>
      simp only [acts, Option.map_eq_some_iff] at h
      obtain ⟨q, h1, h2⟩ := h
      cases h2
      exact kin_trans (kin_trans (kin_clear _) (kin_lend' _)) (ih h1)
    | call p d =>
      simp only [acts] at h
      have hk := deedAfter_kin (z := false) (repr := repr) (grow := grow) (a := a) p d
      split at h
      · rename_i a' ha
        rw [ha] at hk
        simp only [Option.map_eq_some_iff] at h
        obtain ⟨q, h1, h2⟩ := h
        cases h2
        exact kin_trans hk (ih h1)
      · rename_i e a' ha
        rw [ha] at hk
        exact kin_trans hk (ih h)
      · cases h
      · cases h

/-- Doing the same with both. -/
theorem acts_r {lo δ : Nat} {repr : Bool} {grow : Nat → Nat} {a a' b : St} {l g : List Act} (h : StR lo δ a a')
    (ha : acts repr grow a l = some (b, g)) :
    ∃ b', acts repr grow a' l = some (b', g) ∧ Goes lo δ a a' b b' := by
  induction l generalizing a a' b g with
  | nil => cases ha; exact ⟨a', rfl, goes_refl h⟩
  | cons x r ih =>
    cases x with
    | reset =>
      simp only [acts, Option.map_eq_some_iff] at ha
      obtain ⟨q, h1, h2⟩ := ha
      cases h2
      have hr := reset_r h
      obtain ⟨b', h3, h4⟩ := ih hr.1 h1
      exact ⟨b', by simp only [acts, h3, Option.map_some], goes_trans hr h4⟩
    | call p d =>
      have hc := deedAfter_r repr grow p d h
      simp only [acts] at ha ⊢
      generalize deedAfter repr grow p d a = o at ha hc
      generalize deedAfter repr grow p d a' = o' at hc ⊢
      cases o with
      | ok a1 =>
        cases o' <;> first | exact hc.elim | skip
        simp only [Option.map_eq_some_iff] at ha
        obtain ⟨q, h1, h2⟩ := ha
        cases h2
        obtain ⟨b', h3, h4⟩ := ih (StR.mk hc.1.1 hc.1.2 hc.1.3) h1
        exact ⟨b', by simp only [h3, Option.map_some], goes_trans hc h4⟩
      | err e a1 =>
        cases o' <;> first | exact hc.elim | skip
        obtain ⟨b', h3, h4⟩ := ih hc.2.1 ha
        exact ⟨b', h3, goes_trans hc.2 h4⟩
      | panic => cases ha
      | noHandle => cases ha

theorem build_r {lo δ : Nat} {a a' : St} (h : StR lo δ a a') : build a' = build a := by
  obtain ⟨μ, mk, o⟩ := a
  obtain ⟨μ', mk', o'⟩ := a'
  obtain ⟨hm, hk, ho⟩ := h
  dsimp only at hm hk ho
  subst hk
  cases ho with
  | @mk t w w' m m' g g' b b' ph s f cm kids kids' h1 =>
    unfold build
    dsimp only [Obj.w, Obj.ty]
    split
    · cases w with
      | none => cases w' with
        | none => rfl
        | some p => exact h1.elim
      | some p => cases w' with
        | none => exact h1.elim
        | some p' =>
          dsimp only
          rw [load_r hm.at' (rank t) t (read_r hm h1)]
    · rfl

/-- What a node shows does not change with memory that it has nothing to do with. -/
theorem shown_keep {μ ν : Mem} {t : T} {p : Ptr} (h : MemR 0 0 μ μ) (hp : PtrR 0 0 μ.next p p)
    (hk : Keeps μ.next μ ν) : shown t p ν = shown t p μ := by
  unfold shown
  refine load_r (lo := 0) (δ := 0) (n := μ.next) (fun r h1 h2 => ?_) (rank t) t ?_
  · rw [Nat.add_zero, hk.2 r h2]
    exact h.at' r h1 h2
  · have := read_r h hp
    unfold Mem.read at this ⊢
    rw [hk.2 _ hp.2.1]
    exact this

theorem kin_at {o o' : Obj} (h : Kin true o o') {q : List Nat} {k' : Obj} (hk : o'.at' q = some k') :
    ∃ k, o.at' q = some k ∧ (k'.m.isNil = true → k.m.isNil = true) := by
  induction q generalizing o o' with
  | nil =>
    cases hk
    cases h with
    | mk h1 => exact ⟨_, rfl, h1 rfl⟩
  | cons i q ih =>
    cases h with
    | @mk t w w' m m' g g' b b' ph ph' s s' f f' cm cm' kids kids' h1 h2 h3 =>
      simp only [Obj.at'] at hk ⊢
      cases hi : kids'[i]? with
      | none => rw [hi] at hk; cases hk
      | some k1 =>
        rw [hi] at hk
        obtain ⟨k0, hi'⟩ := objR_kid (lo := 0) (δ := 0) (n := 0) h2.symm hi
        rw [hi']
        exact ih (h3 i k0 k1 hi' hi) hk

theorem new_at {k : Nat} {t : T} {q : List Nat} {o : Obj} (h : (newObj k t).at' q = some o) : o.m = .parent := by
  induction q generalizing k t with
  | nil => cases h; cases k <;> rfl
  | cons i q ih =>
    cases k with
    | zero => simp only [newObj, Obj.at'] at h; cases h
    | succ k =>
      simp only [newObj, Obj.at'] at h
      cases hs : t.shape with
      | text => rw [hs] at h; cases h
      | link => rw [hs] at h; cases h
      | list e =>
        rw [hs] at h
        cases i with
        | zero => exact ih h
        | succ i => cases h
      | struct fs =>
        rw [hs] at h
        dsimp only at h
        rw [List.getElem?_map] at h
        cases hf : fs[i]? with
        | none => rw [hf] at h; cases h
        | some fd => rw [hf] at h; exact ih h

/-- Before `Reset`, no assembler lacks a mark. -/
theorem marked {t : T} {o : Obj} (h : Kin true (builder t).obj o) (q : List Nat) : unmarked q o = false := by
  cases q with
  | nil => rfl
  | cons i q =>
    unfold unmarked
    dsimp only
    cases hk : o.at' (i :: q) with
    | none => rfl
    | some k =>
      obtain ⟨k0, h1, h2⟩ := kin_at h hk
      have h3 : (newObj (rank t) t).at' (i :: q) = some k0 := by
        rw [← h1]
        show _ = ((newObj (rank t) t).lend (some (0, [])) .builder).at' (i :: q)
        cases newObj (rank t) t
        rfl
      rw [new_at h3] at h2
      cases hn : k.m.isNil with
      | false => exact hn
      | true => cases h2 hn

/-- Without `Reset`, these are the calls of Spec/Foreign. -/
theorem run_acts {repr : Bool} {grow : Nat → Nat} {t : T} {a : St} (cs : List (List Nat × Deed))
    (hk : Kin true (builder t).obj a.obj) :
    (acts repr grow a (cs.map fun x => .call x.1 x.2)).map Prod.fst = runDeeds repr grow a cs := by
  induction cs generalizing a with
  | nil => rfl
  | cons x r ih =>
    obtain ⟨p, d⟩ := x
    have hc : deedAfter repr grow p d a = deedAt repr grow p d a := by
      unfold deedAfter
      rw [marked hk]
      rfl
    have hk' := deedAt_kin (z := true) (repr := repr) (grow := grow) (a := a) p d
    simp only [runDeeds, List.map_cons, acts, hc]
    generalize deedAt repr grow p d a = o at hk' ⊢
    cases o with
    | ok a1 =>
      dsimp only
      rw [← ih (kin_trans hk hk')]
      cases acts repr grow a1 (r.map fun x => .call x.1 x.2) <;> rfl
    | err e a1 => exact ih (kin_trans hk hk')
    | panic => rfl
    | noHandle => rfl

end Verif.Handles
