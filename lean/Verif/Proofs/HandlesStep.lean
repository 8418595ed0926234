import Verif.Proofs.HandlesReady

/-! One call on an assembler in memory. -/

namespace Verif.Handles

open Calls Spec

/-- The outcome `h` of a call in memory is the outcome `c` in `Verif.Model.Calls`. -/
def Steps (μ : Mem) (o : Obj) (F : Foot) (h : Out) (c : Calls.Out) : Prop :=
  match c with
  | .ok a' => ∃ μ' mk' o' F', h = .ok ⟨μ', mk', o'⟩ ∧ Sim μ' mk' o' a' F' ∧ Eff μ μ' o.w o'.w F F' ∧ o'.m = o.m
  | .err e a' => ∃ μ' mk' o' F', h = .err e ⟨μ', mk', o'⟩ ∧ Sim μ' mk' o' a' F' ∧ Eff μ μ' o.w o'.w F F' ∧
      o'.m = o.m
  | .panic => h = .panic
  | .noHandle => True

theorem steps_same {μ : Mem} {mk : Maybe} {o : Obj} {a : Frame} {F : Foot} {e : Err} (h : Sim μ mk o a F) :
    Steps μ o F (.err e ⟨μ, mk, o⟩) (.err e a) :=
  ⟨μ, mk, o, F, rfl, h, eff_refl h, rfl⟩

/-- A fresh assembler. -/
theorem sim_absent {μ : Mem} {mk : Maybe} {o : Obj} {t : T} {F : Foot} (h : Sim μ mk o (fresh t) F) :
    Head mk o (fresh t) ∧ o.cm = .absent ∧ Kids (freshAt t .initial 0 0) none (parts t) o.kids ∧
      (∀ r, F r → r < μ.next) ∧ Holds μ o.w t .absent (T.zero t) F := by
  cases h with
  | rest h1 _ _ h4 h5 h6 h7 => exact ⟨h1, h4, h5, h6, h7⟩
  | inList _ _ h => cases h
  | inStruct _ _ h => cases h

theorem steps_beginMap {μ : Mem} {mk : Maybe} {o : Obj} {a : Frame} {F : Foot} {t : T} {cs : List (Nat × Call)}
    (hp : Partial t a cs) (h : Sim μ mk o a F) :
    Steps μ o F (beginMap ⟨μ, mk, o⟩) (Calls.beginMap a) := by
  have ht := partial_ty hp
  obtain ⟨t', w, m, b, ph, s, f, ch⟩ := a
  obtain ⟨ot, ow, om, g, ob, oph, os, of, ocm, kids⟩ := o
  replace ht : t' = t := ht
  subst ht
  have hty : ot = t' := (sim_head h).ty
  subst hty
  have hm : mk = m := (sim_head h).mark
  subst hm
  cases hs : ot.shape with
  | struct fs =>
    simp only [Calls.beginMap, beginMap, hs]
    by_cases hab : mk = .absent
    · subst hab
      rw [if_pos rfl, if_pos rfl]
      obtain ⟨he, _⟩ := partial_absent hp rfl
      cases he
      obtain ⟨h1, h2, h3, h4, h5⟩ := sim_absent h
      cases ow with
      | some p =>
        refine ⟨μ, _, _, F, rfl, ?_, eff_refl h, rfl⟩
        exact .rest ⟨rfl, rfl, h1.given, fun _ => rfl, h1.ph, h1.s, h1.f⟩ rfl (by simp [Frame.ph]) h2 h3 h4 h5
      | none =>
        refine ⟨_, _, _, F, rfl, ?_, ?_, rfl⟩
        · refine .rest ⟨rfl, rfl, h1.given, fun _ => rfl, h1.ph, h1.s, h1.f⟩ rfl (by simp [Frame.ph]) h2 h3 ?_ ?_
          · intro r hr
            have := h4 r hr
            simp only [Mem.alloc]; omega
          · refine ⟨⟨trivial, by simp only [Mem.alloc]; omega, fun hF => ?_⟩, ?_⟩
            · have := h4 _ hF
              simp only at this; omega
            · simp only [Mem.read, alloc_new, MVal.get]
              exact repT_zero _ _ _
        · refine ⟨by simp only [Mem.alloc]; omega, fun r hr _ _ => alloc_old _ _ hr, (fun p hp => by cases hp),
            fun _ => Or.inr ⟨_, rfl, Nat.le_refl _⟩, fun _ h => Or.inl h⟩
    · rw [if_neg hab, if_neg hab]
      exact rfl
  | _ =>
    simp only [Calls.beginMap, beginMap, hs]
    exact steps_same h

theorem own_write {μ : Mem} {p : Ptr} {F : Foot} (h : Own μ p F) (x : MVal) : Own (μ.write p x) p F :=
  ⟨by rw [write_same]; exact valid_set h.valid x, h.root, h.out⟩

theorem eff_alloc {μ : Mem} {mk : Maybe} {o : Obj} {a : Frame} {F : Foot} (h : Sim μ mk o a F) (x : MVal) :
    Eff μ (μ.alloc x) o.w o.w F fun r => F r ∨ r = μ.next := by
  refine ⟨by simp only [Mem.alloc]; omega, fun r hr _ _ => alloc_old _ _ hr, fun p hp => ⟨hp, ?_⟩,
    fun h => Or.inl h, fun r hr => ?_⟩
  · have := sim_own h hp
    rw [Mem.read, alloc_old _ _ this.root, set_get this.valid]
  · rcases hr with hr | hr
    · exact Or.inl hr
    · exact Or.inr (by omega)

theorem own_alloc {μ : Mem} {p : Ptr} {F : Foot} (h : Own μ p F) (x : MVal) :
    Own (μ.alloc x) p fun r => F r ∨ r = μ.next :=
  ⟨by rw [alloc_old _ _ h.root]; exact h.valid, by have := h.root; simp only [Mem.alloc]; omega, by
    rintro (h1 | h1)
    · exact h.out h1
    · have := h.root; omega⟩

theorem steps_beginList {μ : Mem} {mk : Maybe} {o : Obj} {a : Frame} {F : Foot} {t : T} {cs : List (Nat × Call)}
    (hint : Int) (hp : Partial t a cs) (h : Sim μ mk o a F) :
    Steps μ o F (beginList hint ⟨μ, mk, o⟩) (Calls.beginList hint a) := by
  have ht := partial_ty hp
  obtain ⟨t', w, m, b, ph, s, f, ch⟩ := a
  obtain ⟨ot, ow, om, g, ob, oph, os, of, ocm, kids⟩ := o
  replace ht : t' = t := ht
  subst ht
  have hty : ot = t' := (sim_head h).ty
  subst hty
  have hm : mk = m := (sim_head h).mark
  subst hm
  cases hs : ot.shape with
  | list e =>
    simp only [Calls.beginList, beginList, hs]
    by_cases hab : mk = .absent
    · subst hab
      rw [if_pos rfl, if_pos rfl]
      obtain ⟨he, _⟩ := partial_absent hp rfl
      cases he
      obtain ⟨h1, h2, h3, h4, h5⟩ := sim_absent h
      have hz : T.zero ot = .list [] := zero_list hs
      cases ow with
      | some p =>
        by_cases hh : 0 < hint
        · rw [if_pos hh, if_pos hh]
          obtain ⟨h5, h6⟩ := h5
          have hown := own_alloc h5 (.arr [])
          refine ⟨_, _, _, fun r => F r ∨ r = μ.next, rfl, ?_, ?_, rfl⟩
          · refine .rest ⟨rfl, rfl, h1.given, fun _ => rfl, h1.ph, h1.s, h1.f⟩ rfl (by simp [Frame.ph]) h2 h3 ?_
              ⟨own_write hown _, ?_⟩
            · intro r hr
              show r < μ.next + 1
              rcases hr with hr | hr
              · have := h4 r hr; omega
              · omega
            · rw [read_write hown.valid]
              refine (repT_list hs).2 ⟨[], μ.next, hint.toNat, rfl, rfl, by simp, Or.inr ⟨[], fun _ _ => False, ?_, by simp,
                Or.inr rfl, fun _ _ _ h => h.elim, fun _ _ h => h.elim, fun i v x h => by simp at h⟩⟩
              rw [write_other _ _ (by have := h5.root; omega), alloc_new]
          · exact eff_trans (fun q hq => by cases hq; exact h5.valid) (eff_alloc h (.arr []))
              (eff_write hown _ _ fun _ h => Or.inl h)
        · rw [if_neg hh, if_neg hh]
          refine ⟨μ, _, _, F, rfl, ?_, eff_refl h, rfl⟩
          exact .rest ⟨rfl, rfl, h1.given, fun _ => rfl, h1.ph, h1.s, h1.f⟩ rfl (by simp [Frame.ph]) h2 h3 h4 h5
      | none =>
        obtain ⟨⟨fs, hf⟩, _⟩ := h5
        rw [hs] at hf; cases hf
    · rw [if_neg hab, if_neg hab]
      exact rfl
  | _ =>
    simp only [Calls.beginList, beginList, hs]
    exact steps_same h

theorem steps_assignNull {μ : Mem} {mk : Maybe} {o : Obj} {a : Frame} {F : Foot} (h : Sim μ mk o a F) :
    Steps μ o F (assignNull ⟨μ, mk, o⟩) (Calls.assignNull a) := by
  unfold Calls.assignNull assignNull
  rw [← (sim_head h).mark]
  simp only
  by_cases hm : mk = .absent
  · rw [if_pos hm, if_pos hm]; exact steps_same h
  · rw [if_neg hm, if_neg hm]; exact rfl

/-- Giving the whole value at once. -/
theorem sim_assign {μ μ1 : Mem} {mk : Maybe} {o : Obj} {t : T} {F : Foot} {v : Val} {x : MVal} {p : Ptr}
    (h : Sim μ mk o (fresh t) F) (hw : o.w = some p) (hn : μ.next ≤ μ1.next)
    (ho : ∀ r, r < μ.next → μ1.at' r = μ.at' r)
    (hx : RepT μ1 t v x fun r => μ.next ≤ r ∧ r < μ1.next) :
    ∃ F', Sim (μ1.write p x) .value (.mk o.ty (some p) o.m o.given o.begun o.ph o.s o.f o.cm o.kids)
      (.mk t v .value false .initial 0 0 none) F' ∧ Eff μ (μ1.write p x) o.w (some p) F F' := by
  obtain ⟨h1, h2, h3, h4, h5⟩ := sim_absent h
  have hown := sim_own h hw
  have hown1 : Own μ1 p fun r => μ.next ≤ r ∧ r < μ1.next :=
    ⟨by rw [ho _ hown.root]; exact hown.valid, Nat.lt_of_lt_of_le hown.root hn, fun hh => by
      have := hown.root; omega⟩
  refine ⟨fun r => μ.next ≤ r ∧ r < μ1.next, ?_, ?_⟩
  · refine .rest ⟨h1.ty, rfl, h1.given, fun h => (by cases h), h1.ph, h1.s, ?_⟩ rfl (by simp [Frame.ph]) h2 h3
      (fun r hr => hr.2) ⟨own_write hown1 x, ?_⟩
    · intro h; rcases h with h | h <;> cases h
    · rw [read_write hown1.valid]
      refine repT_frame hx (fun _ h => h) fun r hr => write_other _ _ fun he => ?_
      have := hown.root; omega
  · refine ⟨hn, fun r hr _ hpr => ?_, fun q hq => ?_, (fun hq => by rw [hw] at hq; cases hq), fun r hr => Or.inr hr.1⟩
    · rw [write_other _ _ (hpr p hw)]
      exact ho r hr
    · rw [hw] at hq
      cases hq
      exact ⟨rfl, by rw [read_write hown1.valid, write_same, ho _ hown.root]⟩

theorem scalar_w {μ : Mem} {mk : Maybe} {o : Obj} {t : T} {F : Foot} (h : Sim μ mk o (fresh t) F)
    (hs : ¬ IsStruct t) : ∃ p, o.w = some p := by
  obtain ⟨h1, h2, h3, h4, h5⟩ := sim_absent h
  cases hw : o.w with
  | some p => exact ⟨p, rfl⟩
  | none => rw [hw] at h5; exact absurd h5.1 hs

theorem not_struct {t : T} (h : ∀ fs, t.shape ≠ .struct fs) : ¬ IsStruct t := fun ⟨fs, hf⟩ => h fs hf

theorem steps_assignString {μ : Mem} {mk : Maybe} {o : Obj} {a : Frame} {F : Foot} {t : T} {cs : List (Nat × Call)}
    (x : Bytes) (hp : Partial t a cs) (h : Sim μ mk o a F) :
    Steps μ o F (assignString x ⟨μ, mk, o⟩) (Calls.assignString x a) := by
  have ht := partial_ty hp
  obtain ⟨t', w, m, b, ph, s, f, ch⟩ := a
  replace ht : t' = t := ht
  subst ht
  have hm : mk = m := (sim_head h).mark
  subst hm
  have hty : o.ty = t' := (sim_head h).ty
  cases hs : t'.shape with
  | text =>
    by_cases hv : mk = .value
    · subst hv
      obtain ⟨ot, ow, om, g, ob, oph, os, of, ocm, kids⟩ := o
      replace hty : ot = _ := hty
      subst hty
      simp only [Calls.assignString, assignString, hs, if_true]
      exact rfl
    · obtain ⟨he, _⟩ := partial_scalar hp (Or.inl hs) hv
      cases he
      obtain ⟨p, hw⟩ := scalar_w h (not_struct (by rw [hs]; intro fs h; cases h))
      obtain ⟨F', h1, h2⟩ := sim_assign (v := .text x) (x := .text x) h hw (Nat.le_refl _) (fun _ _ => rfl)
        ((rep_text hs).2 ⟨x, rfl, rfl⟩)
      obtain ⟨ot, ow, om, g, ob, oph, os, of, ocm, kids⟩ := o
      replace hty : ot = _ := hty
      subst hty
      cases hw
      simp only [Calls.assignString, assignString, hs, if_neg hv]
      exact ⟨_, _, _, F', rfl, h1, h2, rfl⟩
  | _ =>
    obtain ⟨ot, ow, om, g, ob, oph, os, of, ocm, kids⟩ := o
    replace hty : ot = _ := hty
    subst hty
    simp only [Calls.assignString, assignString, hs]
    exact steps_same h

theorem steps_assignLink {μ : Mem} {mk : Maybe} {o : Obj} {a : Frame} {F : Foot} {t : T} {cs : List (Nat × Call)}
    (x : Link) (hp : Partial t a cs) (h : Sim μ mk o a F) :
    Steps μ o F (assignLink x ⟨μ, mk, o⟩) (Calls.assignLink x a) := by
  have ht := partial_ty hp
  obtain ⟨t', w, m, b, ph, s, f, ch⟩ := a
  replace ht : t' = t := ht
  subst ht
  have hm : mk = m := (sim_head h).mark
  subst hm
  have hty : o.ty = t' := (sim_head h).ty
  cases hs : t'.shape with
  | link =>
    by_cases hv : mk = .value
    · subst hv
      obtain ⟨ot, ow, om, g, ob, oph, os, of, ocm, kids⟩ := o
      replace hty : ot = _ := hty
      subst hty
      simp only [Calls.assignLink, assignLink, hs, if_true]
      exact rfl
    · obtain ⟨he, _⟩ := partial_scalar hp (Or.inr hs) hv
      cases he
      obtain ⟨p, hw⟩ := scalar_w h (not_struct (by rw [hs]; intro fs h; cases h))
      obtain ⟨F', h1, h2⟩ := sim_assign (v := .link x) (x := .link x) h hw (Nat.le_refl _) (fun _ _ => rfl)
        ((rep_link hs).2 ⟨x, rfl, rfl⟩)
      obtain ⟨ot, ow, om, g, ob, oph, os, of, ocm, kids⟩ := o
      replace hty : ot = _ := hty
      subst hty
      cases hw
      simp only [Calls.assignLink, assignLink, hs, if_neg hv]
      exact ⟨_, _, _, F', rfl, h1, h2, rfl⟩
  | _ =>
    obtain ⟨ot, ow, om, g, ob, oph, os, of, ocm, kids⟩ := o
    replace hty : ot = _ := hty
    subst hty
    simp only [Calls.assignLink, assignLink, hs]
    exact steps_same h

theorem steps_assignSelf {μ : Mem} {mk : Maybe} {o : Obj} {a : Frame} {F : Foot} {t : T} {cs : List (Nat × Call)}
    (u : T) (v : Val) (hv : Complete u v) (hp : Partial t a cs) (h : Sim μ mk o a F) :
    Steps μ o F (assignSelf u v ⟨μ, mk, o⟩) (Calls.assignSelf u v a) := by
  have ht := partial_ty hp
  obtain ⟨t', w, m, b, ph, s, f, ch⟩ := a
  replace ht : t' = t := ht
  subst ht
  have hm : mk = m := (sim_head h).mark
  subst hm
  have hty : o.ty = t' := (sim_head h).ty
  unfold Calls.assignSelf
  by_cases hu : u = t'
  · subst hu
    simp only [ne_eq, not_true_eq_false, if_false]
    have hput := store_ok (Nat.le_refl _) (Nat.le_refl _) hv μ
    by_cases hab : mk = .absent
    · subst hab
      rw [if_pos rfl]
      obtain ⟨he, _⟩ := partial_absent hp rfl
      cases he
      cases hw : o.w with
      | some p =>
        obtain ⟨F', h1, h2⟩ := sim_assign h hw hput.next hput.old hput.rep
        obtain ⟨ot, ow, om, g, ob, oph, os, of, ocm, kids⟩ := o
        replace hty : ot = _ := hty
        subst hty
        cases hw
        refine ⟨_, _, _, F', ?_, h1, h2, rfl⟩
        unfold assignSelf
        cases hs : ot.shape <;> simp [hs, Obj.ty, Obj.m, Obj.given, Obj.begun, Obj.ph, Obj.s, Obj.f, Obj.cm, Obj.kids]
      | none =>
        obtain ⟨h1, h2, h3, h4, h5⟩ := sim_absent h
        rw [hw] at h5
        obtain ⟨fs, hs⟩ := h5.1
        obtain ⟨ot, ow, om, g, ob, oph, os, of, ocm, kids⟩ := o
        replace hty : ot = _ := hty
        subst hty
        cases hw
        refine ⟨(store (rank ot) ot v μ).1.alloc (store (rank ot) ot v μ).2, .value,
          .mk ot (some ((store (rank ot) ot v μ).1.next, [])) om g ob oph os of ocm kids,
          fun r => μ.next ≤ r ∧ r < (store (rank ot) ot v μ).1.next, ?_, ?_, ?_, ?_⟩
        · simp only [assignSelf, ne_eq, not_true_eq_false, if_false, hs, if_true]
        · refine .rest ⟨rfl, rfl, h1.given, fun h => (by cases h), h1.ph, h1.s, ?_⟩ rfl (by simp [Frame.ph]) h2 h3
            (fun r hr => by simp only [Mem.alloc]; omega) ⟨⟨trivial, by simp only [Mem.alloc]; omega, ?_⟩, ?_⟩
          · intro h; rcases h with h | h <;> cases h
          · simp only; omega
          · simp only [Mem.read, alloc_new, MVal.get]
            exact repT_frame hput.rep (fun _ h => h) fun r hr => alloc_old _ _ hr.2
        · have := hput.next
          refine ⟨by simp only [Mem.alloc]; omega, fun r hr _ _ => ?_, (fun p hp => by cases hp),
            fun _ => Or.inr ⟨_, rfl, hput.next⟩, fun _ h => Or.inr h.1⟩
          rw [alloc_old _ _ (by omega)]
          exact hput.old r hr
        · rfl
    · rw [if_neg hab]
      obtain ⟨ot, ow, om, g, ob, oph, os, of, ocm, kids⟩ := o
      replace hty : ot = _ := hty
      subst hty
      show assignSelf _ _ _ = .panic
      unfold assignSelf
      simp only [ne_eq, not_true_eq_false, if_false]
      cases hs : ot.shape with
      | struct fs => simp only [if_neg hab]
      | list e => simp only [if_neg hab]
      | text =>
        have : mk = .value := Classical.byContradiction fun hn => by
          have := (partial_scalar hp (Or.inl hs) hn).1
          cases this; exact hab rfl
        simp only [if_pos this]
      | link =>
        have : mk = .value := Classical.byContradiction fun hn => by
          have := (partial_scalar hp (Or.inr hs) hn).1
          cases this; exact hab rfl
        simp only [if_pos this]
  · simp only [ne_eq, hu, not_false_eq_true, if_true]
    exact trivial

end Verif.Handles
