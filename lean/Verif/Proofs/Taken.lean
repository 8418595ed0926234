import Verif.Proofs.HandlesRun
import Verif.Spec.Taken

/-!
# `AssignNode` with any node on an assembler that has not been used
-/

namespace Verif.Handles

open Calls Spec

/-! ## The loops do not look at the mark -/

/-- The assembler as if the client had got the map or list assembler. -/
def Obj.opened : Obj → Obj
  | mk t w m g _ ph s f cm kids => mk t w m g true ph s f cm kids

def St.as (m : Maybe) (a : St) : St := ⟨a.mem, m, a.obj.opened⟩

def Out.as (m : Maybe) : Out → Out
  | .ok a => .ok (a.as m)
  | .err e a => .err e (a.as m)
  | .panic => .panic
  | .noHandle => .noHandle

theorem tidy_as (repr : Bool) (m : Maybe) (a : St) : tidy repr (a.as m) = (tidy repr a).map (St.as m) := by
  obtain ⟨μ, mk, t, w, ma, g, b, ph, s, f, cm, kids⟩ := a
  simp only [St.as, Obj.opened, tidy]
  cases t.shape with
  | text => rfl
  | link => rfl
  | list e => dsimp only; split <;> rfl
  | struct fs =>
    dsimp only
    cases fs[f]? with
    | none => rfl
    | some fd =>
      dsimp only
      split
      · split <;> rfl
      · cases w with
        | none => rfl
        | some p => dsimp only; split <;> rfl

theorem ready_as (repr : Bool) (m : Maybe) (a : St) : ready repr (a.as m) = (ready repr a).map (St.as m) := by
  have h : (a.as m).obj.ph = a.obj.ph := by obtain ⟨μ, mk, t, w, ma, g, b, ph, s, f, cm, kids⟩ := a; rfl
  unfold ready
  rw [h]
  split
  · rfl
  · exact tidy_as repr m a
  · rfl

theorem as_ty (m : Maybe) (a : St) : (a.as m).obj.ty = a.obj.ty := by
  obtain ⟨μ, mk, t, w, ma, g, b, ph, s, f, cm, kids⟩ := a; rfl

theorem as_f (m : Maybe) (a : St) : (a.as m).obj.f = a.obj.f := by
  obtain ⟨μ, mk, t, w, ma, g, b, ph, s, f, cm, kids⟩ := a; rfl

theorem assembleKey_as (repr : Bool) (m : Maybe) (a : St) :
    assembleKey repr (a.as m) = (assembleKey repr a).as m := by
  unfold assembleKey
  rw [as_ty, ready_as]
  cases a.obj.ty.shape with
  | struct fs =>
    cases ready repr a with
    | none => rfl
    | some b => obtain ⟨μ, mk, t, w, ma, g, b, ph, s, f, cm, kids⟩ := b; rfl
  | _ => rfl

theorem keyAssign_as (x : Bytes) (m : Maybe) (a : St) : keyAssign x (a.as m) = (keyAssign x a).as m := by
  obtain ⟨μ, mk, t, w, ma, g, b, ph, s, f, cm, kids⟩ := a
  simp only [St.as, Obj.opened, keyAssign]
  cases t.shape with
  | struct fs =>
    dsimp only
    split
    · rfl
    · cases takeKey fs x s <;> rfl
  | _ => rfl

theorem assembleValue_as (repr : Bool) (grow : Nat → Nat) (m : Maybe) (a : St) :
    assembleValue repr grow (a.as m) = (assembleValue repr grow a).as m := by
  unfold assembleValue
  rw [as_ty]
  cases a.obj.ty.shape with
  | struct fs =>
    obtain ⟨μ, mk, t, w, ma, g, b, ph, s, f, cm, kids⟩ := a
    cases ph with
    | expectValue =>
      simp only [St.as, Obj.opened]
      cases fs[f]? with
      | none => rfl
      | some fd =>
        dsimp only
        cases lendField fd f μ w with
        | none => rfl
        | some x => rfl
    | _ => rfl
  | list e =>
    dsimp only
    rw [ready_as]
    cases ready repr a with
    | none => rfl
    | some b =>
      obtain ⟨μ, mk, t, w, ma, g, b, ph, s, f, cm, kids⟩ := b
      simp only [Option.map_some, St.as, Obj.opened]
      cases w.bind fun p => appendZero grow e p μ with
      | none => rfl
      | some x => rfl
  | _ => rfl

theorem withKid_as (act : St → Out) (m : Maybe) (a : St) (i : Nat) :
    withKid act (a.as m) i = (withKid act a i).as m := by
  have hk : kid (a.as m) i = kid a i := by
    obtain ⟨μ, mk, t, w, ma, g, b, ph, s, f, cm, kids⟩ := a; rfl
  have hp : ∀ k, putBack (a.as m) i k = (putBack a i k).as m := by
    intro k
    obtain ⟨μ, mk, t, w, ma, g, b, ph, s, f, cm, kids⟩ := a
    obtain ⟨kμ, kmk, kt, kw, km, kg, kb, kph, ks, kf, kcm, kkids⟩ := k
    cases km <;> rfl
  unfold withKid
  rw [hk]
  cases kid a i with
  | none => rfl
  | some k =>
    dsimp only
    cases act k <;> simp only [hp, Out.as]

/-- The same outcome, but for the mark of an assembler that returned an error. -/
def Alike : Out → Out → Prop
  | .ok a, .ok b => b = a.as a.mark
  | .err e _, .err e' _ => e = e'
  | .panic, .panic => True
  | .noHandle, .noHandle => True
  | _, _ => False

theorem finish_as (repr : Bool) (m : Maybe) (a : St) : Alike (finish repr a) (finish repr (a.as m)) := by
  unfold finish
  rw [as_ty, ready_as]
  cases a.obj.ty.shape with
  | struct fs =>
    cases ready repr a with
    | none => trivial
    | some b =>
      obtain ⟨μ, mk, t, w, ma, g, b, ph, s, f, cm, kids⟩ := b
      simp only [Option.map_some, St.as, Obj.opened]
      split <;> rfl
  | list e =>
    cases ready repr a with
    | none => trivial
    | some b => obtain ⟨μ, mk, t, w, ma, g, b, ph, s, f, cm, kids⟩ := b; rfl
  | _ => trivial

theorem alike_as (m : Maybe) (o : Out) {f : St → Out} (h : ∀ a, Alike (f a) (f (a.as m))) :
    Alike (o.andThen f) ((o.as m).andThen f) := by
  cases o with
  | ok a => exact h a
  | err e a => rfl
  | panic => trivial
  | noHandle => trivial

theorem andThen_as (m : Maybe) (o : Out) {f : St → Out} (h : ∀ a, f (a.as m) = (f a).as m) :
    (o.as m).andThen f = (o.andThen f).as m := by
  cases o with
  | ok a => exact h a
  | err e a => rfl
  | panic => rfl
  | noHandle => rfl

theorem nds_as (repr : Bool) (grow : Nat → Nat) (m : Maybe) :
    (ns : Nds) → (a : St) → Alike (assignNds repr grow ns a) (assignNds repr grow ns (a.as m))
  | .nil, a => finish_as repr m a
  | .cons n r, a => by
    simp only [assignNds]
    rw [assembleValue_as, andThen_as m _ fun a => withKid_as _ m a 0]
    exact alike_as m _ fun a => nds_as repr grow m r a

theorem ents_as (repr : Bool) (grow : Nat → Nat) (m : Maybe) :
    (es : Ents) → (a : St) → Alike (assignEnts repr grow es a) (assignEnts repr grow es (a.as m))
  | .nil, a => finish_as repr m a
  | .cons k n r, a => by
    simp only [assignEnts]
    rw [assembleKey_as, andThen_as m _ fun a => keyAssign_as k m a,
      andThen_as m _ fun a => assembleValue_as repr grow m a,
      andThen_as m _ fun a => by rw [as_f]; exact withKid_as _ m a _]
    exact alike_as m _ fun a => ents_as repr grow m r a

/-! ## What the loops do -/

/-- The outcome of giving a node to an assembler that has not been used. -/
def Got (μ : Mem) (o : Obj) (F : Foot) (t : T) (out : Out) : Res Val → Prop
  | .ok v => ∃ μ' o' F' ph s f, out = .ok ⟨μ', .value, o'⟩ ∧
      Sim μ' .value o' (.mk t v .value false ph s f none) F' ∧ Eff μ μ' o.w o'.w F F' ∧ o'.m = o.m
  | .err e => ∃ a, out = .err e a
  | .panic => out = .panic

/-- The same for a list or struct in the middle of its loop. -/
def GotIn (μ : Mem) (o : Obj) (F : Foot) (t : T) (out : Out) : Res Val → Prop
  | .ok v => ∃ μ' o' F' ph s f, out = .ok ⟨μ', .value, o'⟩ ∧
      Sim μ' .value o' (.mk t v .value true ph s f none) F' ∧ Eff μ μ' o.w o'.w F F' ∧ o'.m = o.m
  | .err e => ∃ a, out = .err e a
  | .panic => out = .panic

theorem opened_same (o : Obj) : o.opened.w = o.w ∧ o.opened.m = o.m := by cases o; exact ⟨rfl, rfl⟩

/-- The client may have got less than the simulation says. -/
theorem sim_closed {μ : Mem} {mk : Maybe} {o : Obj} {t : T} {v : Val} {m : Maybe} {ph : MaState} {s f : Nat} {F : Foot}
    (h : Sim μ mk o.opened (.mk t v m true ph s f none) F) : Sim μ mk o (.mk t v m false ph s f none) F := by
  obtain ⟨ot, ow, om, g, ob, oph, os, of, ocm, kids⟩ := o
  cases h with
  | rest h1 h2 h3 h4 h5 h6 h7 =>
    exact .rest ⟨h1.ty, h1.mark, h1.given, (fun h => by cases h), h1.ph, h1.s, h1.f⟩ rfl h3 h4 h5 h6 h7
  | inList _ _ h => cases h
  | inStruct _ _ h => cases h

theorem got_of_in {μ : Mem} {o : Obj} {F : Foot} {t : T} {out out' : Out} {r : Res Val} (h : Alike out out')
    (h' : GotIn μ o.opened F t out' r) : Got μ o F t out r := by
  cases r with
  | ok v =>
    obtain ⟨μ', o', F', ph, s, f, e, h1, h2, h3⟩ := h'
    subst e
    cases out with
    | ok a =>
      obtain ⟨aμ, am, ao⟩ := a
      simp only [Alike, St.as] at h
      cases h
      refine ⟨_, _, F', ph, s, f, rfl, sim_closed h1, ?_, ?_⟩
      · rw [(opened_same _).1, (opened_same _).1] at h2; exact h2
      · rw [(opened_same _).2, (opened_same _).2] at h3; exact h3
    | err e a => exact h.elim
    | panic => exact h.elim
    | noHandle => exact h.elim
  | err e =>
    obtain ⟨a, e⟩ := h'
    subst e
    cases out with
    | err e' b => cases h; exact ⟨b, rfl⟩
    | ok a => exact h.elim
    | panic => exact h.elim
    | noHandle => exact h.elim
  | panic =>
    cases (show out' = .panic from h')
    cases out with
    | panic => rfl
    | ok a => exact h.elim
    | err e a => exact h.elim
    | noHandle => exact h.elim

/-- The assembler of the elements has a place to write to. -/
theorem row_place {μ : Mem} {mk : Maybe} {o : Obj} {a ch : Frame} {F : Foot} {e : T} {k : St} (h : Sim μ mk o a F)
    (hc : a.child = some ch) (hs : a.ty.shape = .list e) (hk : kid ⟨μ, mk, o⟩ 0 = some k) : k.obj.w.isNone = false := by
  cases h with
  | rest _ h => rw [hc] at h; cases h
  | inStruct _ h => rw [hs] at h; cases h
  | inList _ _ _ _ h1 _ _ _ _ _ _ _ _ _ _ _ _ h2 =>
    simp only [kid, h1, List.getElem?_cons_zero, Option.some.injEq] at hk
    subst hk
    simp only [h2, Option.isNone]

/-- Whether the assembler of a field has a place to write to. -/
theorem field_place {μ : Mem} {mk : Maybe} {o : Obj} {a ch : Frame} {F : Foot} {fs : List FieldT} {fd : FieldT}
    {k : St} {kw : Option Ptr} {km : MarkAt} (h : Sim μ mk o a F) (hc : a.child = some ch)
    (hs : a.ty.shape = .struct fs) (hfd : fs[a.f]? = some fd) (hk : kid ⟨μ, mk, o⟩ a.f = some k)
    (hl : lendField fd a.f μ o.w = some (kw, km)) (hkw : k.obj.w = kw) :
    k.obj.w.isNone = (!fd.required && FieldT.byRef fd) := by
  cases h with
  | rest _ h => rw [hc] at h; cases h
  | inList _ h => rw [hs] at h; cases h
  | @inStruct _ _ _ _ _ _ _ fs' fd' p l xs _ k' _ h2 _ _ h5 _ h7 h8 _ _ _ _ h13 h14 _ _ _ h18 =>
    rw [hs] at h2; cases h2
    rw [hfd] at h5; cases h5
    rw [h8] at hl
    simp only [kid, h7, Option.some.injEq] at hk
    subst hk
    simp only at hkw ⊢
    unfold Lent at h18
    cases hq : fd.required with
    | true =>
      rw [if_pos hq] at h18
      rw [h18.1]
      rfl
    | false =>
      rw [if_neg (by simp [hq])] at h18
      cases hb : FieldT.byRef fd with
      | false =>
        rw [if_neg (by simp [hb])] at h18
        rw [h18.2.2.1]
        rfl
      | true =>
        rw [if_pos hb] at h18
        have hx := h18.2.2.1
        simp only [lendField, hq, hb, if_true, Bool.false_eq_true, if_false] at hl
        rw [show (p.1, p.2 ++ [a.f, 0]) = (p.1, p.2 ++ a.f :: [0]) from rfl, read_sub, h13] at hl
        simp only [MVal.get, hx, Option.getD_some, Option.some.injEq, Prod.mk.injEq] at hl
        rw [hkw, ← hl.1]
        rfl

/-- What `AssembleValue` of a struct hands out. -/
theorem handed {repr : Bool} {grow : Nat → Nat} {μ : Mem} {mk : Maybe} {o : Obj} {a : St} {fs : List FieldT} {fd : FieldT}
    (hs : o.ty.shape = .struct fs) (hfd : fs[o.f]? = some fd)
    (h : assembleValue repr grow ⟨μ, mk, o⟩ = .ok a) :
    ∃ kw km, lendField fd o.f a.mem a.obj.w = some (kw, km) ∧ a.obj.f = o.f ∧
      ∀ k, kid a o.f = some k → k.obj.w = kw := by
  obtain ⟨t, w, ma, g, b, ph, s, f, cm, kids⟩ := o
  unfold assembleValue at h
  simp only [hs] at h
  cases ph with
  | expectValue =>
    replace hfd : fs[f]? = some fd := hfd
    simp only [hfd] at h
    cases hl : lendField fd f μ w with
    | none => rw [hl] at h; cases h
    | some x =>
      rw [hl] at h
      cases h
      refine ⟨x.1, x.2, hl, rfl, ?_⟩
      intro k hk
      simp only [kid, Obj.kids, Obj.f, modifyKid_get, if_true] at hk
      cases hk0 : kids[f]? with
      | none => rw [hk0] at hk; cases hk
      | some k0 =>
        rw [hk0] at hk
        cases hk
        cases k0
        rfl
  | _ => cases h

/-- No required field is missing. -/
theorem noneMissing_iff {fs : List FieldT} {l : List (Option Val)} (hl : l.length = fs.length) :
    noneMissing fs l = true ↔ AllGiven fs l := by
  unfold noneMissing AllGiven
  rw [List.all_eq_true]
  constructor
  · intro h i fd hf hr
    have hlt : i < fs.length := (List.getElem?_eq_some_iff.1 hf).1
    have hli : l[i]? = some (l[i]'(by omega)) := List.getElem?_eq_getElem _
    have := h (fd, l[i]'(by omega)) (List.mem_iff_getElem?.2 ⟨i, by
      rw [List.getElem?_zip_eq_some]; exact ⟨hf, hli⟩⟩)
    simp only [hr, Bool.not_true, Bool.false_or, Option.isSome_iff_exists] at this
    obtain ⟨v, hv⟩ := this
    exact ⟨v, by rw [hli, hv]⟩
  · rintro h ⟨fd, x⟩ hx
    obtain ⟨i, hi⟩ := List.mem_iff_getElem?.1 hx
    rw [List.getElem?_zip_eq_some] at hi
    cases hr : fd.required with
    | false => rfl
    | true =>
      obtain ⟨v, hv⟩ := h i fd hi.1 hr
      rw [hi.2] at hv
      cases hv
      rfl

theorem whole_partial (t : T) (v : Val) (ph : MaState) (s f : Nat) :
    Partial t (.mk t v .value false ph s f none) [(0, .assignSelf t v)] :=
  .done false ph s f (.whole v) (fun h => by cases h) (Or.inr (Or.inr ⟨v, rfl⟩))

theorem something_required {t : T} {fs : List FieldT} (h : t.shape = .struct fs) :
    noneMissing fs (fs.map fun _ => none) = false := by
  cases t <;> cases h <;> rfl

/-- The name of an entry, for the mask and for the fields. -/
theorem takeKey_fields {fs : List FieldT} {l : List (Option Val)} {s : Nat} (hb : Bits s l) (hl : l.length = fs.length)
    (k : Bytes) :
    takeKey fs k s = match fs.findIdx? fun f => f.name = k with
      | none => .err .invalidKey
      | some i =>
        match l[i]?, fs[i]? with
        | some none, some fd => .ok (i, fd)
        | _, _ => .err .repeatedKey := by
  unfold takeKey Calls.find
  cases hf : fs.findIdx? (fun f => decide (f.name = k)) with
  | none => rfl
  | some i =>
    have hlt : i < fs.length := (List.findIdx?_eq_some_iff_getElem.1 hf).1
    simp only [List.getElem?_eq_getElem hlt, List.getElem?_eq_getElem (hl ▸ hlt : i < l.length)]
    cases hv : l[i]'(hl ▸ hlt) with
    | none =>
      rw [if_neg]
      intro h
      obtain ⟨v, hv'⟩ := (hb i).1 ((and_bit_ne_zero s i).1 h)
      rw [List.getElem?_eq_getElem (hl ▸ hlt : i < l.length), hv] at hv'
      cases hv'
    | some v =>
      rw [if_pos]
      exact (and_bit_ne_zero s i).2 ((hb i).2 ⟨v, by rw [List.getElem?_eq_getElem (hl ▸ hlt : i < l.length), hv]⟩)

/-- A struct with nothing behind it. -/
theorem bare_ents {repr : Bool} {grow : Nat → Nat} {μ : Mem} {o : Obj} {fs : List FieldT} (es : Ents) (F : Foot)
    (hs : o.ty.shape = .struct fs) (hw : o.w = none) (hph : o.ph = .initial) (hs0 : o.s = 0) :
    Got μ o F o.ty (assignEnts repr grow es ⟨μ, .absent, o⟩)
      (takenFields true fs es (fs.map fun _ => none) >>= fun l => .ok (.struct l)) := by
  obtain ⟨t, w, ma, g, b, ph, s, f, cm, kids⟩ := o
  replace hs : t.shape = .struct fs := hs
  cases (show w = none from hw)
  cases (show ph = .initial from hph)
  cases (show s = 0 from hs0)
  have hb : Bits 0 (fs.map fun _ => none) := bits_zero fs
  cases es with
  | nil =>
    have hq := something_required hs
    have hsuf : ¬ (0 &&& sufficient fs = sufficient fs) := by
      rw [sufficient_iff hb, ← noneMissing_iff (by simp), hq]; simp
    simp only [takenFields, hq, assignEnts, finish, Obj.ty, hs, ready, Obj.ph, ne_eq, hsuf, not_false_eq_true, if_true]
    exact ⟨_, rfl⟩
  | cons k n r =>
    simp only [takenFields, assignEnts, assembleKey, Obj.ty, hs, ready, Obj.ph, Out.andThen, keyAssign, ne_eq,
      not_true_eq_false, if_false, takeKey_fields hb (by simp : (fs.map fun _ => none).length = fs.length)]
    cases hf : fs.findIdx? (fun f => decide (f.name = k)) with
    | none => exact ⟨_, rfl⟩
    | some i =>
      have hlt : i < fs.length := (List.findIdx?_eq_some_iff_getElem.1 hf).1
      simp only [List.getElem?_map, List.getElem?_eq_getElem hlt, Option.map_some, assembleValue, Obj.ty, hs, lendField,
        if_true]
      rfl

/-! ## Every node -/

mutual

theorem nd_got (repr : Bool) (grow : Nat → Nat) : (n : Nd) → Filled n → ∀ {t : T} {μ : Mem} {o : Obj} {F : Foot},
    Sim μ .absent o (fresh t) F →
      Got μ o F t (assignNd repr grow n ⟨μ, .absent, o⟩) (taken o.w.isNone t n)
  | .null, _, t, μ, o, F, h => by
    simp only [assignNd, taken, assignNull, if_true]
    exact ⟨_, rfl⟩
  | .other, _, t, μ, o, F, h => by
    simp only [assignNd, taken]
    exact ⟨_, rfl⟩
  | .own u v n, hn, t, μ, o, F, h => by
    have hty : o.ty = t := (sim_head h).ty
    simp only [assignNd, taken, hty]
    by_cases hu : u = t
    · subst hu
      rw [if_pos rfl, if_pos rfl]
      have hst := steps_assignSelf u v hn.1 (.idle u) h
      simp only [Calls.assignSelf, fresh, ne_eq, not_true_eq_false, if_false, if_true] at hst
      obtain ⟨μ', mk', o', F', e1, e2, e3, e4⟩ := hst
      cases (sim_head e2).mark
      exact ⟨μ', o', F', _, _, _, e1, e2, e3, e4⟩
    · rw [if_neg hu, if_neg hu]
      exact nd_got repr grow n hn.2 h
  | .text b, _, t, μ, o, F, h => by
    have hty : o.ty = t := (sim_head h).ty
    simp only [assignNd, taken, hty]
    cases hs : t.shape with
    | text =>
      have hst := steps_assignString b (.idle t) h
      simp only [Calls.assignString, fresh, hs, reduceCtorEq, if_false] at hst
      obtain ⟨μ', mk', o', F', e1, e2, e3, e4⟩ := hst
      cases (sim_head e2).mark
      exact ⟨μ', o', F', _, _, _, e1, e2, e3, e4⟩
    | _ => exact ⟨_, rfl⟩
  | .link l, _, t, μ, o, F, h => by
    have hty : o.ty = t := (sim_head h).ty
    simp only [assignNd, taken, hty]
    cases hs : t.shape with
    | link =>
      have hst := steps_assignLink l (.idle t) h
      simp only [Calls.assignLink, fresh, hs, reduceCtorEq, if_false] at hst
      obtain ⟨μ', mk', o', F', e1, e2, e3, e4⟩ := hst
      cases (sim_head e2).mark
      exact ⟨μ', o', F', _, _, _, e1, e2, e3, e4⟩
    | _ => exact ⟨_, rfl⟩
  | .list ns, hn, t, μ, o, F, h => by
    have hty : o.ty = t := (sim_head h).ty
    simp only [assignNd, taken, hty]
    cases hs : t.shape with
    | list e =>
      simp only
      obtain ⟨h1, h2, h3, h4, h5⟩ := sim_absent h
      refine got_of_in (nds_as repr grow .midvalue ns ⟨μ, .absent, o⟩) ?_
      have hsim : Sim μ .midvalue o.opened (.mk t (.list []) .midvalue true .initial 0 0 none) F := by
        obtain ⟨ot, ow, om, g, ob, oph, os, of, ocm, kids⟩ := o
        refine .rest ⟨h1.ty, rfl, h1.given, fun _ => rfl, h1.ph, h1.s, h1.f⟩ rfl (by simp [Frame.ph]) h2 h3 h4 ?_
        have hz := zero_list hs
        cases ow with
        | none => obtain ⟨⟨fs, hf⟩, -⟩ := h5; rw [hs] at hf; cases hf
        | some p => rw [hz] at h5; exact h5
      exact nds_got repr grow ns hn hs (.listIdle hs 0 0 0 .nil) rfl rfl hsim
    | _ => exact ⟨_, rfl⟩
  | .map es, hn, t, μ, o, F, h => by
    have hty : o.ty = t := (sim_head h).ty
    simp only [assignNd, taken, hty]
    cases hs : t.shape with
    | struct fs =>
      simp only
      obtain ⟨h1, h2, h3, h4, h5⟩ := sim_absent h
      cases hw : o.w with
      | none =>
        subst hty
        exact bare_ents es F hs hw (h1.ph (parts_ne_struct hs)) (h1.s ⟨fs, hs⟩)
      | some p =>
        refine got_of_in (ents_as repr grow .midvalue es ⟨μ, .absent, o⟩) ?_
        have hsim : Sim μ .midvalue o.opened (.mk t (.struct (fs.map fun _ => none)) .midvalue true .initial 0 0 none) F := by
          obtain ⟨ot, ow, om, g, ob, oph, os, of, ocm, kids⟩ := o
          refine .rest ⟨h1.ty, rfl, h1.given, fun _ => rfl, h1.ph, h1.s, h1.f⟩ rfl (by simp [Frame.ph]) h2 h3 h4 ?_
          cases (show ow = some p from hw)
          rw [zero_struct hs] at h5
          exact h5
        exact ents_got repr grow es hn hs (.structIdle hs 0 0 .nil (bits_zero fs)) rfl rfl hsim
    | _ => exact ⟨_, rfl⟩

theorem nds_got (repr : Bool) (grow : Nat → Nat) : (ns : Nds) → FilledAll ns →
    ∀ {t e : T} {μ : Mem} {o : Obj} {F : Foot} {a : Frame} {cs : List (Nat × Call)} {vs : List Val} {s f : Nat},
    t.shape = .list e → Partial t a cs → a.begun = true →
    Calls.ready a = some (.mk t (.list vs) .midvalue true .initial s f none) → Sim μ .midvalue o a F →
      GotIn μ o F t (assignNds repr grow ns ⟨μ, .midvalue, o⟩)
        (takenAll e ns >>= fun ws => .ok (.list (vs ++ ws)))
  | .nil, _, t, e, μ, o, F, a, cs, vs, s, f, hs, hp, hb, hr, h => by
    have hst := steps_finish repr hp hb h
    simp only [Calls.finish, partial_ty hp, hs, hr] at hst
    obtain ⟨μ', mk', o', F', e1, e2, e3, e4⟩ := hst
    cases (sim_head e2).mark
    simp only [assignNds, takenAll, Res.bind_ok, List.append_nil]
    exact ⟨μ', o', F', _, _, _, e1, e2, e3, e4⟩
  | .cons n r, hn, t, e, μ, o, F, a, cs, vs, s, f, hs, hp, hb, hr, h => by
    have hst := steps_assembleValue repr grow hp hb h
    simp only [Calls.assembleValue, partial_ty hp, hs, hr] at hst
    obtain ⟨μ1, mk1, o1, F1, e1, e2, e3, e4⟩ := hst
    cases (sim_head e2).mark
    obtain ⟨vs', es', n', s', f', ea, hel, -⟩ := ready_list hp hs hb hr
    cases ea
    obtain ⟨ck, k, H, hk, hks, hback⟩ := sim_child e2 rfl
    cases (sim_head hks).mark
    have hpl : place (.mk t (.list vs) .midvalue true .midValue s f (some (fresh e))) = 0 := by simp [place, Frame.ty, hs]
    rw [hpl] at hk hback
    have hkw := row_place e2 rfl hs hk
    have hg := nd_got repr grow n hn.1 hks
    simp only at hkw
    rw [hkw] at hg
    simp only [assignNds, takenAll, e1, Out.andThen, withKid, hk]
    cases ht : taken false e n with
    | panic => rw [ht] at hg; rw [show assignNd repr grow n ⟨μ1, Frame.m (fresh e), k⟩ = .panic from hg]; rfl
    | err x =>
      rw [ht] at hg
      obtain ⟨b, hb'⟩ := hg
      rw [show assignNd repr grow n ⟨μ1, Frame.m (fresh e), k⟩ = .err x b from hb']
      exact ⟨_, rfl⟩
    | ok v =>
      rw [ht] at hg
      obtain ⟨μ2, k2, H2, ph2, s2, f2, g1, g2, g3, g4⟩ := hg
      rw [show assignNd repr grow n ⟨μ1, Frame.m (fresh e), k⟩ = .ok ⟨μ2, .value, k2⟩ from g1]
      obtain ⟨μ3, o3, F3, b1, b2, b3, b4⟩ := hback μ2 .value k2 _ H2 g2 g3 g4
      simp only [b1, Res.bind_ok]
      have hrest := nds_got repr grow r hn.2 hs (.listMid hs 0 s f hel (whole_partial e v ph2 s2 f2)) rfl
        (vs := vs ++ [v]) (by rfl) b2
      have heff := eff_trans (sim_valid h) e3 b3
      have hm3 : o3.m = o.m := b4.trans e4
      cases ha : takenAll e r with
      | ok ws =>
        rw [ha] at hrest
        obtain ⟨μ4, o4, F4, ph4, s4, f4, c1, c2, c3, c4⟩ := hrest
        simp only [Res.bind_ok]
        refine ⟨μ4, o4, F4, ph4, s4, f4, c1, ?_, eff_trans (sim_valid h) heff c3, c4.trans hm3⟩
        rw [List.append_assoc] at c2
        exact c2
      | err x => rw [ha] at hrest; exact hrest
      | panic => rw [ha] at hrest; exact hrest

theorem ents_got (repr : Bool) (grow : Nat → Nat) : (es : Ents) → FilledEnts es →
    ∀ {t : T} {fs : List FieldT} {μ : Mem} {o : Obj} {F : Foot} {a : Frame} {cs : List (Nat × Call)}
      {l : List (Option Val)} {s f : Nat},
    t.shape = .struct fs → Partial t a cs → a.begun = true →
    Calls.ready a = some (.mk t (.struct l) .midvalue true .initial s f none) → Sim μ .midvalue o a F →
      GotIn μ o F t (assignEnts repr grow es ⟨μ, .midvalue, o⟩)
        (takenFields false fs es l >>= fun l => .ok (.struct l))
  | .nil, _, t, fs, μ, o, F, a, cs, l, s, f, hs, hp, hb, hr, h => by
    obtain ⟨l', es', s', f', ea, hent, hbits, -⟩ := ready_struct hp hs hb hr
    cases ea
    have hst := steps_finish repr hp hb h
    simp only [Calls.finish, partial_ty hp, hs, hr] at hst
    simp only [assignEnts, takenFields]
    have hiff := (sufficient_iff (fs := fs) hbits).trans (noneMissing_iff (entries_length hent)).symm
    by_cases hm : noneMissing fs l = true
    · rw [if_neg (by rw [ne_eq, Decidable.not_not]; exact hiff.2 hm)] at hst
      rw [if_pos hm]
      obtain ⟨μ', mk', o', F', e1, e2, e3, e4⟩ := hst
      cases (sim_head e2).mark
      exact ⟨μ', o', F', _, _, _, e1, e2, e3, e4⟩
    · rw [if_pos fun h => hm (hiff.1 h)] at hst
      rw [if_neg hm]
      obtain ⟨μ', mk', o', F', e1, -⟩ := hst
      exact ⟨_, e1⟩
  | .cons k n r, hn, t, fs, μ, o, F, a, cs, l, s, f, hs, hp, hb, hr, h => by
    obtain ⟨l', es', s', f', ea, hent, hbits, -⟩ := ready_struct hp hs hb hr
    cases ea
    -- AssembleKey
    have hst := steps_assembleKey repr hp h
    simp only [Calls.assembleKey, partial_ty hp, hs, hr] at hst
    obtain ⟨μ1, mk1, o1, F1, e1, e2, e3, e4⟩ := hst
    cases (sim_head e2).mark
    -- the key
    have hst := steps_keyAssign k (.structKey hs s f hent hbits) e2
    simp only [Calls.keyAssign, hs, ne_eq, not_true_eq_false, if_false] at hst
    rw [takeKey_fields hbits (entries_length hent)] at hst
    simp only [assignEnts, takenFields, e1, Out.andThen]
    cases hf : fs.findIdx? (fun f => decide (f.name = k)) with
    | none =>
      rw [hf] at hst
      obtain ⟨μ', mk', o', F', g1, -⟩ := hst
      rw [show keyAssign k ⟨μ1, _, o1⟩ = _ from g1]
      exact ⟨_, rfl⟩
    | some i =>
      rw [hf] at hst
      have hlt : i < fs.length := (List.findIdx?_eq_some_iff_getElem.1 hf).1
      have hll : i < l.length := by rw [entries_length hent]; exact hlt
      have hfi : fs[i]? = some fs[i] := List.getElem?_eq_getElem hlt
      have hli : l[i]? = some l[i] := List.getElem?_eq_getElem hll
      cases hv : l[i] with
      | some v =>
        simp only [hfi, hli, hv] at hst ⊢
        obtain ⟨μ', mk', o', F', g1, -⟩ := hst
        rw [show keyAssign k ⟨μ1, _, o1⟩ = _ from g1]
        exact ⟨_, rfl⟩
      | none =>
        rw [hv] at hli
        simp only [hfi, hli] at hst ⊢
        obtain ⟨μ2, mk2, o2, F2, g1, g2, g3, g4⟩ := hst
        rw [show keyAssign k ⟨μ1, _, o1⟩ = _ from g1]
        cases (sim_head g2).mark
        have hfree : s.testBit i = false := by
          cases hb' : s.testBit i with
          | false => rfl
          | true =>
            obtain ⟨v, hv'⟩ := (hbits i).1 hb'
            rw [hli] at hv'; cases hv'
        -- AssembleValue
        have hpe : Partial t (.mk t (.struct l) .midvalue true .expectValue (s + 1 <<< i) i none) _ :=
          .structExpect hs s i hent hbits hfi hli
        have hst := steps_assembleValue repr grow hpe rfl g2
        simp only [Calls.assembleValue, Frame.ty, hs, hfi] at hst
        obtain ⟨μ3, mk3, o3, F3, b1, b2, b3, b4⟩ := hst
        cases (sim_head b2).mark
        have hty2 : o2.ty = t := (sim_head g2).ty
        have hf2 : o2.f = i := (sim_head g2).f (Or.inl rfl) ⟨fs, hs⟩
        obtain ⟨kw, km, l1, l2, l3⟩ := handed (by rw [hty2]; exact hs) (by rw [hf2]; exact hfi) b1
        rw [hf2] at l1 l2 l3
        obtain ⟨ck, kk, H, hk, hks, hback⟩ := sim_child b2 rfl
        cases (sim_head hks).mark
        have hpl : place (.mk t (.struct l) .midvalue true .midValue (s + 1 <<< i) i (some (fresh fs[i].ty))) = i := by
          simp [place, Frame.ty, Frame.f, hs]
        rw [hpl] at hk hback
        have hkw := field_place b2 rfl hs hfi hk l1 (l3 _ hk)
        have hg := nd_got repr grow n hn.1 hks
        simp only at hkw
        rw [hkw] at hg
        simp only [show assembleValue repr grow ⟨μ2, _, o2⟩ = _ from b1, withKid, l2, hk, Bool.false_eq_true, if_false]
        cases ht : taken (!fs[i].required && FieldT.byRef fs[i]) fs[i].ty n with
        | panic =>
          rw [ht] at hg
          rw [show assignNd repr grow n ⟨μ3, Frame.m (fresh fs[i].ty), kk⟩ = .panic from hg]
          rfl
        | err x =>
          rw [ht] at hg
          obtain ⟨b, hb'⟩ := hg
          rw [show assignNd repr grow n ⟨μ3, Frame.m (fresh fs[i].ty), kk⟩ = .err x b from hb']
          exact ⟨_, rfl⟩
        | ok v =>
          rw [ht] at hg
          obtain ⟨μ4, k4, H4, ph4, s4, f4, c1, c2, c3, c4⟩ := hg
          rw [show assignNd repr grow n ⟨μ3, Frame.m (fresh fs[i].ty), kk⟩ = .ok ⟨μ4, .value, k4⟩ from c1]
          obtain ⟨μ5, o5, F5, d1, d2, d3, d4⟩ := hback μ4 .value k4 _ H4 c2 c3 c4
          simp only [d1, Res.bind_ok]
          have hrest := ents_got repr grow r hn.2 hs
            (.structMid hs s i hent hbits hfi hli .keyValue (whole_partial fs[i].ty v ph4 s4 f4)) rfl
            (l := l.set i (some v)) (by rfl) d2
          have v0 := sim_valid h
          have heff := eff_trans v0 (eff_trans v0 (eff_trans v0 e3 g3) b3) d3
          have hm5 : o5.m = o.m := d4.trans (b4.trans (g4.trans e4))
          cases ha : takenFields false fs r (l.set i (some v)) with
          | ok ws =>
            rw [ha] at hrest
            obtain ⟨μ6, o6, F6, ph6, s6, f6, x1, x2, x3, x4⟩ := hrest
            exact ⟨μ6, o6, F6, ph6, s6, f6, x1, x2, eff_trans v0 heff x3, x4.trans hm5⟩
          | err x => rw [ha] at hrest; exact hrest
          | panic => rw [ha] at hrest; exact hrest

end

/-! ## The value has all that its type requires -/

mutual

theorem taken_complete : (n : Nd) → Filled n → ∀ {b : Bool} {t : T} {v : Val}, taken b t n = .ok v → Complete t v
  | .null, _, b, t, v, h => by cases h
  | .other, _, b, t, v, h => by cases h
  | .own u x n, hn, b, t, v, h => by
    simp only [taken] at h
    split at h
    · rename_i hu
      cases h
      subst hu
      exact hn.1
    · exact taken_complete n hn.2 h
  | .text x, _, b, t, v, h => by
    simp only [taken] at h
    cases hs : t.shape <;> rw [hs] at h <;> cases h
    exact .text hs x
  | .link x, _, b, t, v, h => by
    simp only [taken] at h
    cases hs : t.shape <;> rw [hs] at h <;> cases h
    exact .link hs x
  | .list ns, hn, b, t, v, h => by
    simp only [taken] at h
    cases hs : t.shape with
    | list e =>
      rw [hs] at h
      obtain ⟨vs, h1, h2⟩ := Res.bind_eq_ok.1 h
      cases h2
      exact .list hs vs (takenAll_complete ns hn h1)
    | _ => rw [hs] at h; cases h
  | .map es, hn, b, t, v, h => by
    simp only [taken] at h
    cases hs : t.shape with
    | struct fs =>
      rw [hs] at h
      obtain ⟨l, h1, h2⟩ := Res.bind_eq_ok.1 h
      cases h2
      obtain ⟨g1, g2, g3⟩ := takenFields_complete es hn (l := fs.map fun _ => none) (by simp) (by
        intro i fd v hf hl
        rw [List.getElem?_map] at hl
        cases hx : fs[i]? <;> rw [hx] at hl <;> simp at hl) h1
      exact .struct hs l g1 g2 g3
    | _ => rw [hs] at h; cases h

theorem takenAll_complete : (ns : Nds) → FilledAll ns → ∀ {e : T} {vs : List Val}, takenAll e ns = .ok vs →
    ∀ v ∈ vs, Complete e v
  | .nil, _, e, vs, h => by cases h; simp
  | .cons n r, hn, e, vs, h => by
    simp only [takenAll] at h
    obtain ⟨v, h1, h⟩ := Res.bind_eq_ok.1 h
    obtain ⟨ws, h2, h⟩ := Res.bind_eq_ok.1 h
    cases h
    intro x hx
    rcases List.mem_cons.1 hx with rfl | hx
    · exact taken_complete n hn.1 h1
    · exact takenAll_complete r hn.2 h2 x hx

theorem takenFields_complete : (es : Ents) → FilledEnts es → ∀ {b : Bool} {fs : List FieldT} {l l' : List (Option Val)},
    l.length = fs.length →
    (∀ (i : Nat) (fd : FieldT) (v : Val), FieldAt fs i fd → l[i]? = some (some v) → Complete fd.ty v) →
    takenFields b fs es l = .ok l' →
    l'.length = fs.length ∧ AllGiven fs l' ∧
      ∀ (i : Nat) (fd : FieldT) (v : Val), FieldAt fs i fd → l'[i]? = some (some v) → Complete fd.ty v
  | .nil, _, b, fs, l, l', hl, hc, h => by
    simp only [takenFields] at h
    split at h
    · rename_i hm
      cases h
      exact ⟨hl, (noneMissing_iff hl).1 hm, hc⟩
    · cases h
  | .cons k n r, hn, b, fs, l, l', hl, hc, h => by
    simp only [takenFields] at h
    split at h
    · cases h
    · rename_i i hi
      split at h
      · rename_i fd hli hfi
        split at h
        · cases h
        · obtain ⟨v, h1, h⟩ := Res.bind_eq_ok.1 h
          have hv := taken_complete n hn.1 h1
          refine takenFields_complete r hn.2 (by simp [hl]) ?_ h
          intro j fd' w hf hj
          by_cases hij : i = j
          · subst hij
            rw [List.getElem?_set_self (List.getElem?_eq_some_iff.1 hli).1] at hj
            cases hj
            cases (show some fd = some fd' from hfi.symm.trans hf)
            exact hv
          · rw [List.getElem?_set_ne hij] at hj
            exact hc j fd' w hf hj
      · cases h

end

end Verif.Handles
