import Verif.Proofs.HandlesAfter

/-! What the handles that were kept can still do, while the calls are made on the
current ones, in the typed view. -/

namespace Verif.Handles

open Calls Spec

/-! ## Assemblers that cannot write anything -/

def Off (k : Obj) : Prop := ∀ n, Loose n k

theorem off_mk {t : T} {g b : Bool} {ph : MaState} {s f : Nat} {cm : Maybe} {kids : List Obj} (ht : t ≠ .commit)
    (hl : ∀ fs, t.shape = .struct fs → ∀ (i : Nat) (k : Obj), kids[i]? = some k → ∀ e, k.ty.shape ≠ .list e)
    (hk : ∀ (i : Nat) (k : Obj), kids[i]? = some k → Off k) : Off (.mk t none .parent g b ph s f cm kids) :=
  fun n => .mk (fun p h => by cases h) (fun _ _ => rfl) ht hl fun i k h => hk i k h n

theorem off_kids {o k : Obj} {i : Nat} (h : Off o) (hk : o.kids[i]? = some k) : Off k := by
  intro n
  cases h n with
  | mk _ _ _ _ h5 => exact h5 i k hk

theorem off_ty {o : Obj} (h : Off o) : o.ty ≠ .commit := by
  cases h 0 with
  | mk _ _ h3 => exact h3

theorem off_reset {o : Obj} (h : Off o) : Off o.reset := fun n => loose_reset (h n)

/-- No type but the commit has lists in it, and no type has commits in it. -/
theorem parts_plain {t : T} {i : Nat} {u : T} (hu : (parts t)[i]? = some u) :
    u ≠ .commit ∧ (t ≠ .commit → IsStruct t → ∀ e, u.shape ≠ .list e) := by
  have hm := List.mem_of_getElem? hu
  cases t <;> simp only [parts, T.shape, List.map_cons, List.map_nil, List.mem_cons, List.not_mem_nil, or_false] at hm
  all_goals first
    | exact hm.elim
    | (refine ⟨by rintro rfl; revert hm; decide, ?_⟩
       rintro - ⟨fs, hfs⟩
       cases hfs
       done)
    | (refine ⟨by rintro rfl; revert hm; decide, ?_⟩
       intro hc
       first
       | exact absurd rfl hc
       | (intro _ e he
          cases u <;> first | (cases he; done) | (revert hm; decide)))

theorem off_new (n : Nat) {t : T} (ht : t ≠ .commit) : Off (newObj n t) := by
  induction n generalizing t with
  | zero =>
    unfold newObj
    exact off_mk ht (fun fs _ i k h => by simp at h) fun i k h => by simp at h
  | succ n ih =>
    unfold newObj
    have hk : ∀ (i : Nat) (k : Obj), (match t.shape with
        | .list e => [newObj n e]
        | .struct fs => fs.map fun (fd : FieldT) => newObj n fd.ty
        | _ => [])[i]? = some k → ∃ u, (parts t)[i]? = some u ∧ k = newObj n u := by
      intro i k hk
      cases hs : t.shape with
      | text => rw [hs] at hk; simp at hk
      | link => rw [hs] at hk; simp at hk
      | list e =>
        rw [hs] at hk
        rw [parts_list hs]
        cases i with
        | zero => cases hk; exact ⟨e, rfl, rfl⟩
        | succ i => simp at hk
      | struct fs =>
        rw [hs] at hk
        rw [parts_struct hs]
        simp only [List.getElem?_map] at hk ⊢
        cases hf : fs[i]? with
        | none => rw [hf] at hk; cases hk
        | some fd => rw [hf] at hk; cases hk; exact ⟨_, rfl, rfl⟩
    have hty : ∀ u, (newObj n u).ty = u := by intro u; unfold newObj; rfl
    refine off_mk ht ?_ ?_
    · intro fs hs i k h
      obtain ⟨u, hu, rfl⟩ := hk i k h
      rw [hty]
      exact (parts_plain hu).2 ht ⟨fs, hs⟩
    · intro i k h
      obtain ⟨u, hu, rfl⟩ := hk i k h
      exact ih (parts_plain hu).1

/-- The types of the assemblers that an assembler contains. -/
theorem sim_kidTy {μ : Mem} {mk : Maybe} {o : Obj} {a : Frame} {F : Foot} (h : Sim μ mk o a F) (hc : a.child = none)
    {i : Nat} {k : Obj} (hk : o.kids[i]? = some k) : (parts a.ty)[i]? = some k.ty := by
  have hidle : ∀ {fr : Bool} {t : T} {k : Obj}, Idle fr t k → k.ty = t := by
    intro fr t k h
    obtain ⟨t', w, m, g, b, ph, s, f, cm, kids⟩ := k
    unfold Idle at h
    exact h.1
  cases h with
  | rest h1 _ _ _ h5 =>
    obtain ⟨hlen, hi⟩ := h5
    have hlt := (List.getElem?_eq_some_iff.1 hk).1
    rw [hlen] at hlt
    rw [hidle (hi i _ k (List.getElem?_eq_getElem hlt) hk (by simp))]
    exact List.getElem?_eq_getElem hlt
  | inList _ _ h => rw [hc] at h; cases h
  | inStruct _ _ h => rw [hc] at h; cases h

/-! ## The invariant -/

/-- The field is optional. -/
def Opt (t : T) (i : Nat) : Prop := ∃ fs fd, t.shape = .struct fs ∧ fs[i]? = some fd ∧ fd.required = false

theorem opt_commit {t : T} {i : Nat} (h : Opt t i) : t = .commit := by
  obtain ⟨fs, fd, hs, hf, hr⟩ := h
  by_cases ht : t = .commit
  · exact ht
  · rw [required_of ht hs hf] at hr; cases hr

/-- An assembler that is not the one handed out last: it cannot write anything, or it
is that of an optional field that has been given; `fr` as in `Shut`. -/
def Rest (fr : Bool) (o : Obj) (i : Nat) (k : Obj) : Prop :=
  (Off k ∧ (Opt o.ty i → k.begun = false)) ∨
    (Opt o.ty i ∧ o.s.testBit i = true ∧ ¬ (o.ph = .expectValue ∧ i = o.f) ∧ (∀ n, Shut fr n k) ∧
      ∃ p, o.w = some p ∧ k.m = .mem (p.1, p.2 ++ [i]))

variable {fr : Bool}

theorem rest_mono {o o' : Obj} {i : Nat} {k : Obj} (h : Rest fr o i k) (ht : o'.ty = o.ty)
    (hs : o.s.testBit i = true → o'.s.testBit i = true)
    (hph : o.s.testBit i = true → ¬ (o.ph = .expectValue ∧ i = o.f) → ¬ (o'.ph = .expectValue ∧ i = o'.f))
    (hw : ∀ p, o.w = some p → o'.w = some p) : Rest fr o' i k := by
  unfold Rest
  rw [ht]
  rcases h with h | ⟨h1, h2, h3, h4, p, h5, h6⟩
  · exact Or.inl h
  · exact Or.inr ⟨h1, hs h2, hph h2 h3, h4, p, hw p h5, h6⟩

inductive Neat (fr : Bool) : Obj → Frame → Prop where
  | mk {o : Obj} {a : Frame} :
      (∀ (i : Nat) (k : Obj), o.kids[i]? = some k → (a.child = none ∨ i ≠ place a) → Rest fr o i k) →
      (∀ (ch : Frame) (k : Obj), a.child = some ch → o.kids[place a]? = some k → Neat fr k ch) →
      (∀ (ch : Frame) (k : Obj), a.child = some ch → o.kids[place a]? = some k →
        k.ty ≠ .commit ∧ (Opt o.ty (place a) → k.begun = true → ch.begun = true)) → Neat fr o a

/-- Without a child. -/
theorem neat_idle {o : Obj} {a : Frame} (hc : a.child = none)
    (h : ∀ (i : Nat) (k : Obj), o.kids[i]? = some k → Rest fr o i k) : Neat fr o a :=
  .mk (fun i k hk _ => h i k hk) (fun ch k h => by rw [hc] at h; cases h) fun ch k h => by rw [hc] at h; cases h

theorem neat_rest {o : Obj} {a : Frame} (h : Neat fr o a) (hc : a.child = none) (i : Nat) (k : Obj)
    (hk : o.kids[i]? = some k) : Rest fr o i k := by
  cases h with
  | mk h1 => exact h1 i k hk (Or.inl hc)

/-- The assemblers in one that has been handed out are not in use. -/
theorem neat_lend {k : Obj} {t : T} (w : Option Ptr) (m : MarkAt) (h : Off k) : Neat fr (k.lend w m) (fresh t) := by
  refine neat_idle rfl fun i x hx => Or.inl ⟨?_, ?_⟩
  · refine off_kids h (i := i) ?_
    obtain ⟨t', w', m', g, b, ph, s, f, cm, kids⟩ := k
    exact hx
  · intro ho
    have := opt_commit ho
    rw [lend_ty] at this
    exact absurd this (off_ty h)

theorem neat_start (t : T) : Neat fr (builder t).obj (fresh t) := by
  refine neat_idle rfl fun i k hk => Or.inl ?_
  have hk' : (newObj (rank t) t).kids[i]? = some k := by
    rw [← hk]
    show _ = ((newObj (rank t) t).lend (some (0, [])) .builder).kids[i]?
    cases newObj (rank t) t
    rfl
  have hnew : ∃ n u, k = newObj n u ∧ u ≠ .commit := by
    unfold newObj at hk'
    simp only [Obj.kids] at hk'
    cases hr : rank t with
    | zero => rw [hr] at hk'; simp at hk'
    | succ n =>
      rw [hr] at hk'
      simp only at hk'
      cases hs : t.shape with
      | text => rw [hs] at hk'; simp at hk'
      | link => rw [hs] at hk'; simp at hk'
      | list e =>
        rw [hs] at hk'
        cases i with
        | zero => cases hk'; exact ⟨n, e, rfl, (parts_plain (t := t) (i := 0) (by rw [parts_list hs]; rfl)).1⟩
        | succ i => simp at hk'
      | struct fs =>
        rw [hs] at hk'
        simp only [List.getElem?_map] at hk'
        cases hf : fs[i]? with
        | none => rw [hf] at hk'; cases hk'
        | some fd =>
          rw [hf] at hk'
          cases hk'
          refine ⟨n, fd.ty, rfl, (parts_plain (t := t) (i := i) ?_).1⟩
          rw [parts_struct hs, List.getElem?_map, hf]
          rfl
  obtain ⟨n, u, rfl, hu⟩ := hnew
  exact ⟨off_new n hu, fun _ => by unfold newObj; rfl⟩

/-- What is in an assembler that is done cannot write anything. -/
theorem done_off {μ : Mem} {mk : Maybe} {o : Obj} {a : Frame} {F : Foot} {t : T} {cs : List (Nat × Call)}
    (hp : Partial t a cs) (h : Neat fr o a) (hm : a.m = .value) (ht : o.ty ≠ .commit)
    (hs : Sim μ mk o a F) : (∀ (i : Nat) (k : Obj), o.kids[i]? = some k → Off k) ∧
      (∀ fs, o.ty.shape = .struct fs → ∀ (i : Nat) (k : Obj), o.kids[i]? = some k → ∀ e, k.ty.shape ≠ .list e) := by
  have hc := partial_done hp hm
  constructor
  · intro i k hk
    rcases neat_rest h hc i k hk with h | h
    · exact h.1
    · exact absurd (opt_commit h.1) ht
  · intro fs hfs i k hk
    have hty := (sim_head hs).ty
    exact (parts_plain (sim_kidTy hs hc hk)).2 (by rw [← hty]; exact ht) ⟨fs, by rw [← hty]; exact hfs⟩

theorem done_park {μ : Mem} {mk : Maybe} {o : Obj} {a : Frame} {F : Foot} {t : T} {cs : List (Nat × Call)}
    (hp : Partial t a cs) (h : Neat fr o a) (hm : a.m = .value) (ht : o.ty ≠ .commit)
    (hs : Sim μ mk o a F) (hpm : o.m = .parent) : Off o.park := by
  obtain ⟨h1, h2⟩ := done_off hp h hm ht hs
  obtain ⟨t', w', m', g, b, ph, s, f, cm, kids⟩ := o
  replace hpm : m' = .parent := hpm
  subst hpm
  exact off_mk ht h2 h1

/-- No struct or list is given whole. -/
def NoWhole (cs : List (Nat × Call)) : Prop := ∀ d u v, (d, Call.assignSelf u v) ∈ cs → parts u = []

theorem opened_begun {t : T} {b : Bool} {cs : List (Nat × Call)} (h : Opened t b cs) (hn : parts t ≠ [])
    (hw : NoWhole cs) : b = true := by
  rcases h with h | h | ⟨v, rfl⟩
  · exact h
  · exfalso
    apply hn
    unfold parts
    rcases h with h | h <;> rw [h]
  · exact absurd (hw 0 t v (by simp)) hn

/-- The calls on a child are among those on the assembler. -/
theorem partial_sub {t : T} {a ch : Frame} {cs : List (Nat × Call)} (h : Partial t a cs) (hc : a.child = some ch)
    (hw : NoWhole cs) : ∃ u c, Partial u ch c ∧ NoWhole c := by
  have key : ∀ (x : List (Nat × Call)) (l : List (Nat × Call)), (∀ y ∈ deeper x, y ∈ l) → NoWhole l → NoWhole x := by
    intro x l hs hl d u v hm
    refine hl (d + 1) u v (hs _ ?_)
    exact List.mem_map.2 ⟨_, hm, rfl⟩
  cases h with
  | listMid h n s f he hp =>
    cases hc
    exact ⟨_, _, hp, key _ _ (fun y hy => by simp [hy]) hw⟩
  | structMid h s f he hb hf hl hn hp =>
    cases hc
    exact ⟨_, _, hp, key _ _ (fun y hy => by simp [hy]) hw⟩
  | _ => cases hc

/-- A child, with what is known of its calls. -/
theorem partial_kid {t : T} {a ch : Frame} {cs : List (Nat × Call)} (h : Partial t a cs) (hc : a.child = some ch)
    (hw : fr = true → NoWhole cs) : ∃ u c, Partial u ch c ∧ (fr = true → NoWhole c) := by
  cases fr with
  | true =>
    obtain ⟨u, c, h1, h2⟩ := partial_sub h hc (hw rfl)
    exact ⟨u, c, h1, fun _ => h2⟩
  | false =>
    obtain ⟨u, c, h1, -⟩ := partial_child h hc
    exact ⟨u, c, h1, fun h => by cases h⟩

theorem done_shut {μ : Mem} {mk : Maybe} {o : Obj} {a : Frame} {F : Foot} {t : T} {cs : List (Nat × Call)}
    (hp : Partial t a cs) (h : Neat fr o a) (hm : a.m = .value) (ht : o.ty ≠ .commit)
    (hs : Sim μ mk o a F) (hb : o.begun = true → a.begun = true) (hw : fr = true → NoWhole cs) (n : Nat) :
    Shut fr n o := by
  obtain ⟨h1, h2⟩ := done_off hp h hm ht hs
  refine ⟨fun i k hk => h1 i k hk n, fun hn hob => ?_⟩
  have hh := sim_head hs
  rw [hh.ph (by rw [← hh.ty]; exact hn)]
  have hnt : parts t ≠ [] := by rw [← partial_ty hp, ← hh.ty]; exact hn
  cases hp with
  | done b ph s f _ hph hop =>
    rcases hob with hfr | hob
    · exact hph (opened_begun hop hnt (hw hfr))
    · exact hph (hb hob)
  | _ => cases hm

/-- The state check. -/
theorem neat_ready {μ : Mem} {mk : Maybe} {o : Obj} {a a' : Frame} {F : Foot} {t : T} {cs : List (Nat × Call)}
    {st : St} (hp : Partial t a cs) (hn : parts t ≠ []) (hs : Sim μ mk o a F) (h : Neat fr o a) (hw : fr = true → NoWhole cs)
    (hr : Calls.ready a = some a') (hst : ready false ⟨μ, mk, o⟩ = some st) :
    ∀ (i : Nat) (k : Obj), st.obj.kids[i]? = some k → Rest fr st.obj i k := by
  have hta := partial_ty hp
  rw [← hta] at hn
  have hph := (sim_head hs).ph hn
  cases hs with
  | rest h1 h2 h3 h4 h5 h6 h7 =>
    have hph' : a.ph = .initial := by
      obtain ⟨t', w, m, b, ph, s, f, ch⟩ := a
      replace h2 : ch = none := h2
      subst h2
      cases ph with
      | initial => rfl
      | midValue => exact absurd rfl h3
      | _ => cases hr
    unfold ready at hst
    simp only [hph, hph'] at hst
    cases hst
    exact neat_rest h h2
  | inList h1 hs hc hph' hk ho hFn hown hav hrd hcap hFr hat hlen hA hG hE hkw hkm hsub =>
    rename_i ch e p r cap vs xs G k
    obtain ⟨u, c', hpc, -⟩ := partial_child hp hc
    have hm : ch.m = .value := by
      obtain ⟨t', w, m, b, ph, s, f, ch'⟩ := a
      replace hc : ch' = some ch := hc
      replace hph' : ph = .midValue := hph'
      subst hc hph'
      simp only [Calls.ready] at hr
      split at hr
      · assumption
      · cases hr
    have hpl : place a = 0 := by simp [place, hs]
    cases h with
    | mk n1 n2 n3 =>
    have hk0 : o.kids[place a]? = some k := by rw [hpl, hk]; rfl
    have hoff := off_reset (done_park hpc (n2 ch k hc hk0) hm (n3 ch k hc hk0).1 hsub hkm)
    have hty := h1.ty
    obtain ⟨ot, ow, om, g, ob, oph, os, of, ocm, kids⟩ := o
    replace hty : ot = a.ty := hty
    subst hty
    replace hk : kids = [k] := hk
    subst hk
    replace hph : oph = a.ph := hph
    rw [hph'] at hph
    subst hph
    unfold ready at hst
    simp only [Obj.ph, tidy, hs] at hst
    split at hst
    · cases hst
      intro i x hx
      replace hx : (modifyKid (fun o => o.park.reset) 0 [k])[i]? = some x := hx
      rw [modifyKid_get] at hx
      cases i with
      | zero =>
        cases hx
        refine Or.inl ⟨hoff, fun ⟨fs, fd, hs', _⟩ => ?_⟩
        replace hs' : a.ty.shape = .struct fs := hs'
        rw [hs] at hs'
        cases hs'
      | succ i => simp at hx
    · cases hst
  | inStruct h1 hs hc hph' hfd hK hk ho hFn hown hav hll hrd hxl hA hG hE hlent hsub =>
    rename_i ck ch H fs fd p l xs G k
    obtain ⟨u, c', hpc, hwc⟩ := partial_kid hp hc hw
    have hm : ch.m = .value := by
      obtain ⟨t', w, m, b, ph, s, f, ch'⟩ := a
      replace hc : ch' = some ch := hc
      replace hph' : ph = .midValue := hph'
      subst hc hph'
      simp only [Calls.ready] at hr
      split at hr
      · assumption
      · cases hr
    have hpl : place a = a.f := by simp [place, hs]
    cases h with
    | mk n1 n2 n3 =>
    have hk0 : o.kids[place a]? = some k := by rw [hpl]; exact hk
    have hbit := struct_bit hp (by rw [← hta]; exact hs) hph' (by rw [hc]; simp)
    have hof := h1.f (Or.inr hph') ⟨fs, hs⟩
    have hos := h1.s ⟨fs, hs⟩
    have hty := h1.ty
    obtain ⟨ot, ow, om, g, ob, oph, os, of, ocm, kids⟩ := o
    replace hty : ot = a.ty := hty
    subst hty
    replace hph : oph = a.ph := hph
    rw [hph'] at hph
    subst hph
    replace hof : of = a.f := hof
    subst hof
    replace hos : os = a.s := hos
    subst hos
    replace ho : ow = some p := ho
    subst ho
    replace hk : kids[a.f]? = some k := hk
    unfold ready at hst
    simp only [Obj.ph, tidy, hs, hfd] at hst
    unfold Lent at hlent
    cases hreq : fd.required with
    | true =>
      simp only [hreq, if_true, Bool.false_eq_true, if_false] at hst hlent
      split at hst
      · cases hst
        intro i x hx
        replace hx : (modifyKid Obj.park a.f kids)[i]? = some x := hx
        rw [modifyKid_get] at hx
        split at hx
        · rename_i hi
          subst hi
          rw [hk] at hx
          cases hx
          refine Or.inl ⟨done_park hpc (n2 ch k hc hk0) hm (n3 ch k hc hk0).1 hsub hlent.2.1, ?_⟩
          rintro ⟨fs', fd', hs', hf', hr'⟩
          replace hs' : a.ty.shape = .struct fs' := hs'
          rw [hs] at hs'
          cases hs'
          rw [hfd] at hf'
          cases hf'
          rw [hreq] at hr'
          cases hr'
        · rename_i hi
          exact rest_mono (n1 i x hx (Or.inr (by rw [hpl]; exact fun h => hi h.symm))) rfl id
            (fun _ _ h => by cases h.1) fun p h => h
      · cases hst
    | false =>
      simp only [hreq, if_true, Bool.false_eq_true, if_false] at hst hlent
      split at hst
      · cases hst
        intro i x hx
        replace hx : kids[i]? = some x := hx
        by_cases hi : i = a.f
        · subst hi
          rw [hk] at hx
          cases hx
          have ho : Opt a.ty a.f := ⟨fs, fd, hs, hfd, hreq⟩
          refine Or.inr ⟨ho, hbit, (fun h => by cases h.1), ?_, p, rfl, hlent.1⟩
          have h3 := n3 ch k hc hk0
          exact done_shut hpc (n2 ch k hc hk0) hm h3.1 hsub (h3.2 (by rw [hpl]; exact ho)) hwc
        · exact rest_mono (n1 i x hx (Or.inr (by rw [hpl]; exact hi))) rfl id
            (fun _ _ h => by cases h.1) fun p h => h
      · cases hst

/-- What the same call leaves in memory and in `Verif.Model.Calls`. -/
def Both (r : Out) (q : Calls.Out) (P : Obj → Frame → Prop) : Prop :=
  match r, q with
  | .ok st, .ok a => P st.obj a
  | .err _ st, .err _ a => P st.obj a
  | _, _ => True

theorem both_panic {r : Out} {P : Obj → Frame → Prop} : Both r .panic P := by cases r <;> exact trivial
theorem both_noHandle {r : Out} {P : Obj → Frame → Prop} : Both r .noHandle P := by cases r <;> exact trivial
theorem both_panic' {q : Calls.Out} {P : Obj → Frame → Prop} : Both .panic q P := by cases q <;> exact trivial

/-- Handing out the assembler of a field. -/
theorem neat_field {o o' : Obj} {a' : Frame} {i : Nat} {kids : List Obj} {u : T} {kw : Option Ptr} {km : MarkAt}
    (h : ∀ (j : Nat) (k : Obj), kids[j]? = some k → Rest fr o j k)
    (hkids : o'.kids = modifyKid (Obj.lend kw km) i kids) (ht : o'.ty = o.ty) (hc : a'.child = some (fresh u))
    (hpl : place a' = i) (hw : o'.w = o.w) (hph : o'.ph = .midValue)
    (hs : ∀ j, o.s.testBit j = true → o'.s.testBit j = true)
    (hi : o.s.testBit i = false ∨ o.ph = .expectValue ∧ i = o.f ∨ ¬ Opt o.ty i) : Neat fr o' a' := by
  have hoff : ∀ k, kids[i]? = some k → Off k ∧ (Opt o.ty i → k.begun = false) := by
    intro k hk
    rcases h i k hk with h | ⟨h1, h2, h3, -⟩
    · exact h
    · rcases hi with hi | hi | hi
      · rw [h2] at hi; cases hi
      · exact absurd hi h3
      · exact absurd h1 hi
  have hget : ∀ k, o'.kids[i]? = some k → ∃ k0, kids[i]? = some k0 ∧ k = k0.lend kw km := by
    intro k hk
    rw [hkids, modifyKid_get, if_pos rfl] at hk
    cases h0 : kids[i]? with
    | none => rw [h0] at hk; cases hk
    | some k0 => rw [h0] at hk; cases hk; exact ⟨k0, rfl, rfl⟩
  refine .mk ?_ ?_ ?_
  · intro j k hk hj
    rcases hj with hj | hj
    · rw [hc] at hj; cases hj
    · rw [hpl] at hj
      rw [hkids, modifyKid_get, if_neg (fun h => hj h.symm)] at hk
      exact rest_mono (h j k hk) ht (hs j) (fun _ _ h => by rw [hph] at h; cases h.1) fun p hp => by rw [hw]; exact hp
  · intro ch k hch hk
    rw [hc] at hch
    cases hch
    rw [hpl] at hk
    obtain ⟨k0, h0, rfl⟩ := hget k hk
    exact neat_lend kw km (hoff k0 h0).1
  · intro ch k hch hk
    rw [hpl] at hk ⊢
    obtain ⟨k0, h0, rfl⟩ := hget k hk
    refine ⟨by rw [lend_ty]; exact off_ty (hoff k0 h0).1, fun ho hb => ?_⟩
    rw [ht] at ho
    have := (hoff k0 h0).2 ho
    obtain ⟨t', w', m', g, b, ph, s, f, cm, kids'⟩ := k0
    replace this : b = false := this
    replace hb : b = true := hb
    rw [this] at hb
    cases hb

/-- A call on the current handle. -/
theorem neat_call {μ : Mem} {mk : Maybe} {o : Obj} {a : Frame} {F : Foot} {t : T} {cs : List (Nat × Call)}
    (grow : Nat → Nat) (hp : Partial t a cs) (hs : Sim μ mk o a F) (h : Neat fr o a)
    (hw : fr = true → NoWhole cs) (c : Call) :
    Both (call false grow ⟨μ, mk, o⟩ c) (a.call c) (Neat fr) := by
  have hg : o.given = true := (sim_head hs).given
  have hb := (sim_head hs).begun
  have hta := partial_ty hp
  have hto : o.ty = t := (sim_head hs).ty.trans hta
  have hmk := (sim_head hs).mark
  -- an assembler that nothing has been given to yet
  have hold : ∀ {w' : Option Ptr} {b' : Bool} {a' : Frame}, a = fresh t → a'.child = none →
      (∀ p, o.w = some p → w' = some p) →
      Neat fr (.mk o.ty w' o.m o.given b' o.ph o.s o.f o.cm o.kids) a' := by
    intro w' b' a' ha hc hw
    exact neat_idle hc fun i k hk => rest_mono (neat_rest h (by rw [ha]; rfl) i k hk) rfl id (fun _ h => h) hw
  have hrd : ∀ {fs}, t.shape = .struct fs → a.begun = true →
      (ready false ⟨μ, mk, o⟩ = none ∧ Calls.ready a = none) ∨
      ∃ μ' o' l s f, ready false ⟨μ, mk, o⟩ = some ⟨μ', mk, o'⟩ ∧
        Calls.ready a = some (.mk t (.struct l) .midvalue true .initial s f none) ∧ o'.ty = t ∧ o'.s = s ∧
        o'.ph = .initial ∧ ∀ (i : Nat) (k : Obj), o'.kids[i]? = some k → Rest fr o' i k := by
    intro fs hsh hbe
    have hn := parts_ne_struct hsh
    have hsr := sim_ready false hp hn hs
    cases hra : Calls.ready a with
    | none => rw [hra] at hsr; exact Or.inl ⟨hsr, rfl⟩
    | some a' =>
      rw [hra] at hsr
      obtain ⟨μ', o', F', e1, e2, e3, e4, e5, e6, e7⟩ := hsr
      obtain ⟨l, es, s, f, rfl, -, -⟩ := ready_struct hp hsh hbe hra
      have hh := sim_head e2
      exact Or.inr ⟨μ', o', l, s, f, e1, rfl, hh.ty, hh.s ⟨fs, hsh⟩, hh.ph hn, neat_ready hp hn hs h hw hra e1⟩
  have hrl : ∀ {e}, t.shape = .list e → a.begun = true →
      (ready false ⟨μ, mk, o⟩ = none ∧ Calls.ready a = none) ∨
      ∃ μ' o' l s f, ready false ⟨μ, mk, o⟩ = some ⟨μ', mk, o'⟩ ∧
        Calls.ready a = some (.mk t (.list l) .midvalue true .initial s f none) ∧ o'.ty = t ∧
        ∀ (i : Nat) (k : Obj), o'.kids[i]? = some k → Rest fr o' i k := by
    intro e hsh hbe
    have hn := parts_ne_list hsh
    have hsr := sim_ready false hp hn hs
    cases hra : Calls.ready a with
    | none => rw [hra] at hsr; exact Or.inl ⟨hsr, rfl⟩
    | some a' =>
      rw [hra] at hsr
      obtain ⟨μ', o', F', e1, e2, e3, e4, e5, e6, e7⟩ := hsr
      obtain ⟨l, es, n, s, f, rfl, -⟩ := ready_list hp hsh hbe hra
      have hh := sim_head e2
      exact Or.inr ⟨μ', o', l, s, f, e1, rfl, hh.ty, neat_ready hp hn hs h hw hra e1⟩
  unfold call Frame.call
  cases c with
  | beginMap =>
    simp only [hg, if_true]
    obtain ⟨t', w, m, b, ph, s, f, ch⟩ := a
    obtain ⟨ot, ow, om, g, ob, oph, os, of, ocm, kids⟩ := o
    replace hto : ot = t := hto
    replace hta : t' = t := hta
    subst hto hta
    simp only [beginMap, Calls.beginMap]
    cases hsh : t'.shape with
    | struct fs =>
      simp only
      split
      · rename_i hm
        obtain ⟨ha, -⟩ := partial_absent hp (hmk.symm.trans hm)
        cases ha
        simp only [if_true]
        cases ow with
        | some p => exact hold rfl rfl fun _ h => h
        | none => exact hold rfl rfl fun _ h => by cases h
      · exact both_panic'
    | _ => exact h
  | beginList n =>
    simp only [hg, if_true]
    obtain ⟨t', w, m, b, ph, s, f, ch⟩ := a
    obtain ⟨ot, ow, om, g, ob, oph, os, of, ocm, kids⟩ := o
    replace hto : ot = t := hto
    replace hta : t' = t := hta
    subst hto hta
    simp only [beginList, Calls.beginList]
    cases hsh : t'.shape with
    | list e =>
      simp only
      by_cases hm : m = .absent
      · obtain ⟨ha, -⟩ := partial_absent hp hm
        cases ha
        simp only [if_true]
        split
        · split
          · cases ow with
            | some p => exact hold rfl rfl fun _ h => h
            | none => exact both_panic'
          · exact hold rfl rfl fun _ h => h
        · exact both_panic'
      · simp only [hm, if_false]
        exact both_panic
    | _ => exact h
  | assignNull =>
    simp only [hg, if_true, assignNull, Calls.assignNull]
    split
    · split
      · exact h
      · exact both_panic
    · exact both_panic'
  | assignOther => simp only [hg, if_true]; exact h
  | assignString x =>
    simp only [hg, if_true]
    obtain ⟨t', w, m, b, ph, s, f, ch⟩ := a
    obtain ⟨ot, ow, om, g, ob, oph, os, of, ocm, kids⟩ := o
    replace hto : ot = t := hto
    replace hta : t' = t := hta
    subst hto hta
    simp only [assignString, Calls.assignString]
    cases hsh : t'.shape with
    | text =>
      simp only
      by_cases hm : m = .value
      · simp only [hm, if_true]; exact both_panic
      · obtain ⟨ha, -⟩ := partial_scalar hp (Or.inl hsh) hm
        cases ha
        simp only [reduceCtorEq, if_false]
        split
        · exact both_panic'
        · cases ow with
          | some p => exact hold rfl rfl fun _ h => h
          | none => exact both_panic'
    | _ => exact h
  | assignLink x =>
    simp only [hg, if_true]
    obtain ⟨t', w, m, b, ph, s, f, ch⟩ := a
    obtain ⟨ot, ow, om, g, ob, oph, os, of, ocm, kids⟩ := o
    replace hto : ot = t := hto
    replace hta : t' = t := hta
    subst hto hta
    simp only [assignLink, Calls.assignLink]
    cases hsh : t'.shape with
    | link =>
      simp only
      by_cases hm : m = .value
      · simp only [hm, if_true]; exact both_panic
      · obtain ⟨ha, -⟩ := partial_scalar hp (Or.inr hsh) hm
        cases ha
        simp only [reduceCtorEq, if_false]
        split
        · exact both_panic'
        · cases ow with
          | some p => exact hold rfl rfl fun _ h => h
          | none => exact both_panic'
    | _ => exact h
  | assignSelf u v =>
    simp only [hg, if_true]
    obtain ⟨t', w, m, b, ph, s, f, ch⟩ := a
    obtain ⟨ot, ow, om, g, ob, oph, os, of, ocm, kids⟩ := o
    replace hto : ot = t := hto
    replace hta : t' = t := hta
    subst hto hta
    simp only [assignSelf, Calls.assignSelf]
    by_cases hu : u = t'
    · subst hu
      simp only [ne_eq, not_true_eq_false, if_false]
      by_cases hm : m = .absent
      · obtain ⟨ha, -⟩ := partial_absent hp hm
        cases ha
        simp only [if_true]
        (repeat' split) <;> first
          | exact both_panic'
          | exact hold rfl rfl fun _ h => h
          | exact hold rfl rfl fun _ h => by cases h
      · simp only [hm, if_false]
        exact both_panic
    · simp only [ne_eq, hu, not_false_eq_true, if_true]
      exact both_noHandle
  | assembleEntry x =>
    cases hab : a.begun with
    | false => exact both_noHandle
    | true =>
      simp only [hb hab, if_true, assembleEntry, Calls.assembleEntry, hto, hta]
      cases hsh : t.shape with
      | struct fs =>
        simp only
        rcases hrd hsh hab with ⟨e1, e1'⟩ | ⟨μ', o', l, s, f, e1, e1', e2, e3, e4, e5⟩
        · rw [e1, e1']; exact trivial
        rw [e1, e1']
        obtain ⟨ot, ow, om, g, ob, oph, os, of, ocm, kids⟩ := o'
        replace e3 : os = s := e3
        subst e3
        simp only
        cases hk : takeKey fs x os with
        | panic => exact trivial
        | err e => exact neat_idle rfl e5
        | ok y =>
          obtain ⟨i, fd⟩ := y
          simp only
          have hbit := (takeKey_ok hk).2.2
          cases hl : lendField fd i μ' ow with
          | none => exact trivial
          | some z =>
            obtain ⟨kw, km⟩ := z
            refine neat_field (i := i) (kids := kids) e5 rfl rfl rfl (by simp [place, Frame.ty, hsh, Frame.f]) rfl rfl ?_ (Or.inl hbit)
            intro j hj
            by_cases hji : j = i
            · subst hji
              replace hj : os.testBit j = true := hj
              rw [hbit] at hj
              cases hj
            · exact (bit_other hbit j hji).trans hj
      | _ => exact trivial
  | assembleKey =>
    cases hab : a.begun with
    | false => exact both_noHandle
    | true =>
      simp only [hb hab, if_true, assembleKey, Calls.assembleKey, hto, hta]
      cases hsh : t.shape with
      | struct fs =>
        simp only
        rcases hrd hsh hab with ⟨e1, e1'⟩ | ⟨μ', o', l, s, f, e1, e1', e2, e3, e4, e5⟩
        · rw [e1, e1']; exact trivial
        rw [e1, e1']
        obtain ⟨ot, ow, om, g, ob, oph, os, of, ocm, kids⟩ := o'
        exact neat_idle rfl fun i k hk => rest_mono (e5 i k hk) rfl id (fun _ _ h => by cases h.1) fun _ h => h
      | _ => exact trivial
  | keyAssign x =>
    cases hab : a.begun with
    | false => exact both_noHandle
    | true =>
      simp only [hb hab, if_true]
      cases hsh : t.shape with
      | struct fs =>
        have hh := sim_head hs
        have hos := hh.s ⟨fs, by rw [hta]; exact hsh⟩
        have hcn : a.ph = .midKey → a.child = none := by
          intro hph
          cases hp with
          | listMid => cases hph
          | structMid => cases hph
          | _ => rfl
        obtain ⟨t', w, m, b, ph, s, f, ch⟩ := a
        obtain ⟨ot, ow, om, g, ob, oph, os, of, ocm, kids⟩ := o
        replace hto : ot = t := hto
        replace hta : t' = t := hta
        subst hto hta
        replace hos : os = s := hos
        subst hos
        simp only [keyAssign, Calls.keyAssign, hsh]
        by_cases hph : ph = .midKey
        · subst hph
          have hc := hcn rfl
          replace hc : ch = none := hc
          subst hc
          simp only [ne_eq, not_true_eq_false, if_false]
          split
          · exact both_panic'
          · cases hk : takeKey fs x os with
            | panic => exact trivial
            | err e => exact h
            | ok y =>
              obtain ⟨i, fd⟩ := y
              have hbit := (takeKey_ok hk).2.2
              refine neat_idle rfl fun j k hk => rest_mono (neat_rest h rfl j k hk) rfl ?_ ?_ fun _ h => h
              · intro hj
                replace hj : os.testBit j = true := hj
                by_cases hji : j = i
                · subst hji
                  rw [hbit] at hj
                  cases hj
                · exact (bit_other hbit j hji).trans hj
              · intro hj _ he
                replace hj : os.testBit j = true := hj
                have : j = i := he.2
                subst this
                rw [hbit] at hj
                cases hj
        · simp only [ne_eq, hph, not_false_eq_true, if_true]
          exact both_panic
      | _ =>
        obtain ⟨t', w, m, b, ph, s, f, ch⟩ := a
        replace hta : t' = t := hta
        subst hta
        simp only [Calls.keyAssign, hsh]
        exact both_noHandle
  | keyAssignOther =>
    cases hab : a.begun with
    | false => exact both_noHandle
    | true =>
      simp only [hb hab, if_true, keyAssignOther, Calls.keyAssignOther, hto, hta]
      cases hsh : t.shape with
      | struct fs => exact h
      | _ => exact trivial
  | assembleValue =>
    cases hab : a.begun with
    | false => exact both_noHandle
    | true =>
      simp only [hb hab, if_true, assembleValue, Calls.assembleValue, hto, hta]
      cases hsh : t.shape with
      | text => exact trivial
      | link => exact trivial
      | list e =>
        simp only
        rcases hrl hsh hab with ⟨e1, e1'⟩ | ⟨μ', o', l, s, f, e1, e1', e2, e5⟩
        · rw [e1, e1']; exact trivial
        rw [e1, e1']
        obtain ⟨ot, ow, om, g, ob, oph, os, of, ocm, kids⟩ := o'
        simp only
        split
        · exact trivial
        · refine neat_field (i := 0) (kids := kids) e5 rfl rfl rfl (by simp [place, Frame.ty, hsh]) rfl rfl
            (fun _ h => h) (Or.inr (Or.inr ?_))
          rintro ⟨fs, fd, hs', -⟩
          replace e2 : ot = t := e2
          replace hs' : ot.shape = .struct fs := hs'
          rw [e2, hsh] at hs'
          cases hs'
      | struct fs =>
        simp only
        have hh := sim_head hs
        have hos := hh.s ⟨fs, by rw [hta]; exact hsh⟩
        have hop := hh.ph (by rw [hta]; exact parts_ne_struct hsh)
        have hof := fun hx => hh.f (Or.inl hx) ⟨fs, by rw [hta]; exact hsh⟩
        have hcn : a.ph = .expectValue → a.child = none := by
          intro hph
          cases hp with
          | listMid => cases hph
          | structMid => cases hph
          | _ => rfl
        obtain ⟨t', w, m, b, ph, s, f, ch⟩ := a
        obtain ⟨ot, ow, om, g, ob, oph, os, of, ocm, kids⟩ := o
        replace hto : ot = t := hto
        replace hta : t' = t := hta
        subst hto hta
        replace hos : os = s := hos
        replace hop : oph = ph := hop
        subst hos hop
        cases oph with
        | expectValue =>
          have hof : of = f := hof rfl
          have hc := hcn rfl
          replace hc : ch = none := hc
          subst hof hc
          simp only
          cases hf : fs[of]? with
          | none => exact trivial
          | some fd =>
            simp only
            cases hl : lendField fd of μ ow with
            | none => exact trivial
            | some z =>
              obtain ⟨kw, km⟩ := z
              exact neat_field (i := of) (kids := kids) (neat_rest h rfl) rfl rfl rfl
                (by simp [place, Frame.ty, hsh, Frame.f]) rfl rfl (fun _ h => h) (Or.inr (Or.inl ⟨rfl, rfl⟩))
        | _ => exact trivial
  | finish =>
    cases hab : a.begun with
    | false => exact both_noHandle
    | true =>
      simp only [hb hab, if_true, finish, Calls.finish, hto, hta]
      cases hsh : t.shape with
      | text => exact trivial
      | link => exact trivial
      | list e =>
        simp only
        rcases hrl hsh hab with ⟨e1, e1'⟩ | ⟨μ', o', l, s, f, e1, e1', e2, e5⟩
        · rw [e1, e1']; exact trivial
        rw [e1, e1']
        obtain ⟨ot, ow, om, g, ob, oph, os, of, ocm, kids⟩ := o'
        exact neat_idle rfl fun i k hk => rest_mono (e5 i k hk) rfl id (fun _ _ h => by cases h.1) fun _ h => h
      | struct fs =>
        simp only
        rcases hrd hsh hab with ⟨e1, e1'⟩ | ⟨μ', o', l, s, f, e1, e1', e2, e3, e4, e5⟩
        · rw [e1, e1']; exact trivial
        rw [e1, e1']
        obtain ⟨ot, ow, om, g, ob, oph, os, of, ocm, kids⟩ := o'
        replace e3 : os = s := e3
        subst e3
        simp only
        split
        · exact neat_idle rfl e5
        · exact neat_idle rfl fun i k hk => rest_mono (e5 i k hk) rfl id (fun _ _ h => by cases h.1) fun _ h => h

/-- Only `BeginMap` and `BeginList` give out the map or list assembler. -/
theorem begun_lift {μ : Mem} {mk : Maybe} {o : Obj} {a : Frame} {repr : Bool} {grow : Nat → Nat}
    (hb : o.begun = true → a.begun = true) (d : Nat) (c : Call) :
    Both (callAt repr grow (current d a) c ⟨μ, mk, o⟩) (a.callAt d c)
      fun o' a' => o'.begun = true → a'.begun = true := by
  have hst := callAt_static (repr := repr) (grow := grow) (a := ⟨μ, mk, o⟩) (current d a) c
  cases d with
  | zero =>
    have hm := begun_mono (a := a) c
    have herr : Opens c → ∀ e st, call repr grow ⟨μ, mk, o⟩ c = .err e st → st = ⟨μ, mk, o⟩ := by
      intro hc e st h
      obtain ⟨t, w, m, g, b, ph, s, f, cm, kids⟩ := o
      cases c <;> first | exact hc.elim | skip
      all_goals
        simp only [call, beginMap, beginList] at h
        (repeat' split at h) <;> cases h <;> rfl
    show Both (call repr grow ⟨μ, mk, o⟩ c) (a.call c) _
    replace hst : After (call repr grow ⟨μ, mk, o⟩ c) _ := hst
    cases ho : call repr grow ⟨μ, mk, o⟩ c with
    | ok st =>
      rw [ho] at hst
      obtain ⟨-, h2, -⟩ := hst
      cases ha : a.call c with
      | ok a' =>
        intro hb'
        refine hm.1 a' ha ?_
        rcases h2 with h2 | h2
        · exact Or.inr h2.2
        · rw [h2] at hb'; exact Or.inl (hb hb')
      | _ => exact trivial
    | err e st =>
      rw [ho] at hst
      obtain ⟨-, h2, -⟩ := hst
      cases ha : a.call c with
      | err e' a' =>
        intro hb'
        refine hm.2 e' a' ha (hb ?_)
        rcases h2 with h2 | h2
        · rw [herr h2.2 e st ho] at hb'; exact hb'
        · rw [h2] at hb'; exact hb'
      | _ => exact trivial
    | panic => exact both_panic'
    | noHandle => cases a.call c <;> exact trivial
  | succ d =>
    unfold Frame.callAt
    cases hch : a.child with
    | none => exact both_noHandle
    | some ch =>
      have hcur : current (d + 1) a = place a :: current d ch := by
        simp only [current, hch]
        rfl
      rw [hcur] at hst ⊢
      have hset : ∀ x, (a.setChild x).begun = a.begun := by intro x; cases a; rfl
      simp only
      cases ho : callAt repr grow (place a :: current d ch) c ⟨μ, mk, o⟩ with
      | ok st =>
        rw [ho] at hst
        obtain ⟨-, h2, -⟩ := hst
        have h2 := h2.resolve_left fun h => by cases h.1
        cases ch.callAt d c with
        | ok x => intro hb'; rw [h2] at hb'; rw [hset]; exact hb hb'
        | _ => exact trivial
      | err e st =>
        rw [ho] at hst
        obtain ⟨-, h2, -⟩ := hst
        have h2 := h2.resolve_left fun h => by cases h.1
        cases ch.callAt d c with
        | err e x => intro hb'; rw [h2] at hb'; rw [hset]; exact hb hb'
        | _ => exact trivial
      | panic => exact both_panic'
      | noHandle => cases ch.callAt d c <;> exact trivial

/-- A call on the current handle `d` levels down. -/
theorem neat_callAt {μ : Mem} {mk : Maybe} {o : Obj} {a : Frame} {F : Foot} {t : T} {cs : List (Nat × Call)}
    (grow : Nat → Nat) (hp : Partial t a cs) (hs : Sim μ mk o a F) (h : Neat fr o a)
    (hw : fr = true → NoWhole cs) (d : Nat) (c : Call) :
    Both (callAt false grow (current d a) c ⟨μ, mk, o⟩) (a.callAt d c) (Neat fr) := by
  induction d generalizing μ mk o a F t cs with
  | zero => exact neat_call grow hp hs h hw c
  | succ d ih =>
    unfold Frame.callAt
    cases hch : a.child with
    | none => exact both_noHandle
    | some ch =>
      obtain ⟨u, c', hpc, hwc⟩ := partial_kid hp hch hw
      obtain ⟨ck, k, H, hkid, hsub, -⟩ := sim_child hs hch
      have hk : o.kids[place a]? = some k := by
        unfold kid at hkid
        cases hk : o.kids[place a]? with
        | none => simp only [hk] at hkid; cases hkid
        | some k' => simp only [hk] at hkid; cases hkid; rfl
      cases h with
      | mk n1 n2 n3 =>
      obtain ⟨hty, hbeg⟩ := n3 ch k hch hk
      have hi := ih hpc hsub (n2 ch k hch hk) hwc
      have hst := callAt_static (repr := false) (grow := grow) (a := ⟨μ, ck, k⟩) (current d ch) c
      have hcur : current (d + 1) a = place a :: current d ch := by
        simp only [current, hch]
        rfl
      rw [hcur]
      simp only [callAt, hkid]
      have key : ∀ (st : St) (ch' : Frame), Neat fr st.obj ch' → st.obj.ty = k.ty →
          (Opt o.ty (place a) → st.obj.begun = true → ch'.begun = true) →
          Neat fr (putBack ⟨μ, mk, o⟩ (place a) st).obj (a.setChild ch') := by
        intro st ch' q1 q2 q3
        have hpl : place (a.setChild ch') = place a := by cases a; rfl
        have hcc : (a.setChild ch').child = some ch' := by cases a; rfl
        obtain ⟨ot, ow, om, g, ob, oph, os, of, ocm, kids⟩ := o
        have hpb : ∃ cm', (putBack ⟨μ, mk, .mk ot ow om g ob oph os of ocm kids⟩ (place a) st).obj =
            .mk ot ow om g ob oph os of cm' (kids.set (place a) st.obj) := by
          unfold putBack
          simp only
          split
          · rename_i e _; cases e; exact ⟨_, rfl⟩
          · rename_i e _; cases e; exact ⟨_, rfl⟩
        obtain ⟨cm', hpb⟩ := hpb
        rw [hpb]
        replace hk : kids[place a]? = some k := hk
        have hlt := (List.getElem?_eq_some_iff.1 hk).1
        refine .mk ?_ ?_ ?_
        · intro i x hx hor
          rw [hpl, hcc] at hor
          have hne := hor.resolve_left fun h => by cases h
          replace hx : (kids.set (place a) st.obj)[i]? = some x := hx
          rw [List.getElem?_set_ne (fun h => hne h.symm)] at hx
          exact rest_mono (n1 i x hx (Or.inr hne)) rfl id (fun _ h => h) fun _ h => h
        · intro ch1 x h1 hx
          rw [hcc] at h1
          cases h1
          rw [hpl] at hx
          replace hx : (kids.set (place a) st.obj)[place a]? = some x := hx
          rw [List.getElem?_set_self hlt] at hx
          cases hx
          exact q1
        · intro ch1 x h1 hx
          rw [hcc] at h1
          cases h1
          rw [hpl] at hx ⊢
          replace hx : (kids.set (place a) st.obj)[place a]? = some x := hx
          rw [List.getElem?_set_self hlt] at hx
          cases hx
          exact ⟨by rw [q2]; exact hty, q3⟩
      have hb' := fun ho => begun_lift (μ := μ) (mk := ck) (repr := false) (grow := grow) (hbeg ho) d c
      cases ho : callAt false grow (current d ch) c ⟨μ, ck, k⟩ with
      | ok st =>
        rw [ho] at hi hst hb'
        cases ha : ch.callAt d c with
        | ok ch' =>
          rw [ha] at hi hb'
          exact key st ch' hi hst.1 hb'
        | _ => exact trivial
      | err e st =>
        rw [ho] at hi hst hb'
        cases ha : ch.callAt d c with
        | err e' ch' =>
          rw [ha] at hi hb'
          exact key st ch' hi hst.1 hb'
        | _ => exact trivial
      | panic => exact both_panic'
      | noHandle => cases ch.callAt d c <;> exact trivial

/-- The fields that the map assembler has ticked off are there. -/
def Ticked (a : Frame) : Prop :=
  a.m = .value → ∀ l i, a.w = .struct l → a.s.testBit i = true → ∃ v, l[i]? = some (some v)

theorem ticked_call {t : T} {a : Frame} {cs : List (Nat × Call)} (hp : Partial t a cs) (h : Ticked a) (c : Call) :
    (∀ a', a.call c = .ok a' → Ticked a') ∧ ∀ e a', a.call c = .err e a' → Ticked a' := by
  have hta := partial_ty hp
  have hpre : ∀ x, Calls.ready a = some x → a.begun = true → a.ty.shape ≠ .text → a.ty.shape ≠ .link →
      x.m = .midvalue := by
    intro x hx hb h1 h2
    rw [hta] at h1 h2
    cases hs : t.shape with
    | text => exact absurd hs h1
    | link => exact absurd hs h2
    | list e => obtain ⟨l, es, n, s, f, rfl, -⟩ := ready_list hp hs hb hx; rfl
    | struct fs => obtain ⟨l, es, s, f, rfl, -⟩ := ready_struct hp hs hb hx; rfl
  have hzero : ∀ (w : Val) (m : Maybe) (b : Bool) (ph : MaState) (f : Nat) (ch : Option Frame),
      Ticked (.mk t w m b ph 0 f ch) := by
    intro w m b ph f ch _ l i _ hb
    replace hb : Nat.testBit 0 i = true := hb
    simp at hb
  constructor
  · intro a' ha
    unfold Frame.call at ha
    cases c with
    | beginMap =>
      obtain ⟨t', w, m, b, ph, s, f, ch⟩ := a
      simp only [Calls.beginMap] at ha
      (repeat' split at ha) <;> cases ha
      intro hm
      cases hm
    | beginList n =>
      obtain ⟨t', w, m, b, ph, s, f, ch⟩ := a
      simp only [Calls.beginList] at ha
      (repeat' split at ha) <;> cases ha <;> (intro hm; cases hm)
    | assignNull => simp only [Calls.assignNull] at ha; split at ha <;> cases ha
    | assignOther => cases ha
    | assignString x =>
      obtain ⟨t', w, m, b, ph, s, f, ch⟩ := a
      replace hta : t' = t := hta
      subst hta
      simp only [Calls.assignString] at ha
      split at ha
      · rename_i hs
        split at ha
        · cases ha
        · rename_i hm
          obtain ⟨he, -⟩ := partial_scalar hp (Or.inl hs) hm
          cases he
          cases ha
          exact hzero _ _ _ _ _ _
      · cases ha
    | assignLink x =>
      obtain ⟨t', w, m, b, ph, s, f, ch⟩ := a
      replace hta : t' = t := hta
      subst hta
      simp only [Calls.assignLink] at ha
      split at ha
      · rename_i hs
        split at ha
        · cases ha
        · rename_i hm
          obtain ⟨he, -⟩ := partial_scalar hp (Or.inr hs) hm
          cases he
          cases ha
          exact hzero _ _ _ _ _ _
      · cases ha
    | assignSelf u v =>
      obtain ⟨t', w, m, b, ph, s, f, ch⟩ := a
      replace hta : t' = t := hta
      subst hta
      simp only [Calls.assignSelf] at ha
      split at ha
      · cases ha
      · split at ha
        · rename_i hm
          obtain ⟨he, -⟩ := partial_absent hp hm
          cases he
          cases ha
          exact hzero _ _ _ _ _ _
        · cases ha
    | assembleEntry x =>
      simp only at ha
      split at ha
      · rename_i hb
        simp only [Calls.assembleEntry] at ha
        split at ha
        · rename_i fs hs
          cases hr : Calls.ready a with
          | none => rw [hr] at ha; cases ha
          | some y =>
            have hm := hpre y hr hb (by rw [hs]; simp) (by rw [hs]; simp)
            rw [hr] at ha
            obtain ⟨t', w, m, b, ph, s, f, ch⟩ := y
            replace hm : m = .midvalue := hm
            subst hm
            simp only at ha
            split at ha <;> cases ha
            intro hm
            cases hm
        · cases ha
      · cases ha
    | assembleKey =>
      simp only at ha
      split at ha
      · rename_i hb
        simp only [Calls.assembleKey] at ha
        split at ha
        · rename_i fs hs
          cases hr : Calls.ready a with
          | none => rw [hr] at ha; cases ha
          | some y =>
            have hm := hpre y hr hb (by rw [hs]; simp) (by rw [hs]; simp)
            rw [hr] at ha
            obtain ⟨t', w, m, b, ph, s, f, ch⟩ := y
            replace hm : m = .midvalue := hm
            subst hm
            cases ha
            intro hm
            cases hm
        · cases ha
      · cases ha
    | keyAssign x =>
      simp only at ha
      split at ha
      · rename_i hb
        have hmid : a.ph = .midKey → a.m ≠ .value := by
          intro hph hm
          cases hp with
          | done b ph s f hm' hx =>
            replace hb : b = true := hb
            rw [show ph = .midKey from hph] at hx
            cases hx hb
          | _ => cases hm
        obtain ⟨t', w, m, b, ph, s, f, ch⟩ := a
        simp only [Calls.keyAssign] at ha
        split at ha
        · split at ha
          · cases ha
          · rename_i hph
            have hph : ph = .midKey := by
              cases ph <;> first | rfl | exact absurd (by simp) hph
            subst hph
            split at ha <;> cases ha
            intro hm
            exact absurd hm (hmid rfl)
        · cases ha
      · cases ha
    | keyAssignOther =>
      simp only [Calls.keyAssignOther] at ha
      (repeat' split at ha) <;> cases ha
    | assembleValue =>
      simp only at ha
      split at ha
      · rename_i hb
        simp only [Calls.assembleValue] at ha
        split at ha
        · have hmid : a.ph = .expectValue → a.m ≠ .value := by
            intro hph hm
            cases hp with
            | done b ph s f hm' hx =>
              replace hb : b = true := hb
              rw [show ph = .expectValue from hph] at hx
              cases hx hb
            | _ => cases hm
          obtain ⟨t', w, m, b, ph, s, f, ch⟩ := a
          cases ph with
          | expectValue =>
            simp only at ha
            split at ha <;> cases ha
            intro hm
            exact absurd hm (hmid rfl)
          | _ => cases ha
        · rename_i e hs
          cases hr : Calls.ready a with
          | none => rw [hr] at ha; cases ha
          | some y =>
            have hm := hpre y hr hb (by rw [hs]; simp) (by rw [hs]; simp)
            rw [hr] at ha
            obtain ⟨t', w, m, b, ph, s, f, ch⟩ := y
            replace hm : m = .midvalue := hm
            subst hm
            cases ha
            intro hm
            cases hm
        · cases ha
      · cases ha
    | finish =>
      simp only at ha
      split at ha
      · rename_i hb
        simp only [Calls.finish] at ha
        split at ha
        · rename_i fs hs
          cases hr : Calls.ready a with
          | none => rw [hr] at ha; cases ha
          | some y =>
            rw [hr] at ha
            obtain ⟨l, es, s, f, rfl, -, hbits, -⟩ := ready_struct hp (by rw [← hta]; exact hs) hb hr
            simp only at ha
            split at ha <;> cases ha
            intro _ l' i hl' hi
            cases hl'
            exact (hbits i).1 hi
        · rename_i e hs
          cases hr : Calls.ready a with
          | none => rw [hr] at ha; cases ha
          | some y =>
            rw [hr] at ha
            obtain ⟨l, es, n, s, f, rfl, -⟩ := ready_list hp (by rw [← hta]; exact hs) hb hr
            cases ha
            intro _ l' i hl'
            cases hl'
        · cases ha
      · cases ha
  · intro e a' ha
    unfold Frame.call at ha
    cases c with
    | beginMap =>
      obtain ⟨t', w, m, b, ph, s, f, ch⟩ := a
      simp only [Calls.beginMap] at ha
      (repeat' split at ha) <;> cases ha <;> exact h
    | beginList n =>
      obtain ⟨t', w, m, b, ph, s, f, ch⟩ := a
      simp only [Calls.beginList] at ha
      (repeat' split at ha) <;> cases ha <;> exact h
    | assignNull => simp only [Calls.assignNull] at ha; split at ha <;> cases ha <;> exact h
    | assignOther => cases ha; exact h
    | assignString x =>
      obtain ⟨t', w, m, b, ph, s, f, ch⟩ := a
      simp only [Calls.assignString] at ha
      (repeat' split at ha) <;> cases ha <;> exact h
    | assignLink x =>
      obtain ⟨t', w, m, b, ph, s, f, ch⟩ := a
      simp only [Calls.assignLink] at ha
      (repeat' split at ha) <;> cases ha <;> exact h
    | assignSelf u v =>
      obtain ⟨t', w, m, b, ph, s, f, ch⟩ := a
      simp only [Calls.assignSelf] at ha
      (repeat' split at ha) <;> cases ha
    | assembleEntry x =>
      simp only at ha
      split at ha
      · rename_i hb
        simp only [Calls.assembleEntry] at ha
        split at ha
        · rename_i fs hs
          cases hr : Calls.ready a with
          | none => rw [hr] at ha; cases ha
          | some y =>
            have hm := hpre y hr hb (by rw [hs]; simp) (by rw [hs]; simp)
            rw [hr] at ha
            obtain ⟨t', w, m, b, ph, s, f, ch⟩ := y
            replace hm : m = .midvalue := hm
            subst hm
            simp only at ha
            split at ha <;> cases ha
            intro hm
            cases hm
        · cases ha
      · cases ha
    | assembleKey =>
      simp only [Calls.assembleKey] at ha
      (repeat' split at ha) <;> cases ha
    | keyAssign x =>
      simp only at ha
      obtain ⟨t', w, m, b, ph, s, f, ch⟩ := a
      simp only [Calls.keyAssign] at ha
      (repeat' split at ha) <;> cases ha <;> exact h
    | keyAssignOther =>
      simp only [Calls.keyAssignOther] at ha
      (repeat' split at ha) <;> cases ha <;> exact h
    | assembleValue =>
      simp only [Calls.assembleValue] at ha
      (repeat' split at ha) <;> cases ha
    | finish =>
      simp only at ha
      split at ha
      · rename_i hb
        simp only [Calls.finish] at ha
        split at ha
        · rename_i fs hs
          cases hr : Calls.ready a with
          | none => rw [hr] at ha; cases ha
          | some y =>
            have hm := hpre y hr hb (by rw [hs]; simp) (by rw [hs]; simp)
            rw [hr] at ha
            obtain ⟨t', w, m, b, ph, s, f, ch⟩ := y
            replace hm : m = .midvalue := hm
            subst hm
            simp only at ha
            split at ha <;> cases ha
            intro hm
            cases hm
        · cases hr : Calls.ready a with
          | none => rw [hr] at ha; cases ha
          | some y => rw [hr] at ha; obtain ⟨t', w, m, b, ph, s, f, ch⟩ := y; cases ha
        · cases ha
      · cases ha

theorem ticked_callAt {t : T} {a : Frame} {cs : List (Nat × Call)} (hp : Partial t a cs) (h : Ticked a) (d : Nat)
    (c : Call) : (∀ a', a.callAt d c = .ok a' → Ticked a') ∧ ∀ e a', a.callAt d c = .err e a' → Ticked a' := by
  cases d with
  | zero => exact ticked_call hp h c
  | succ d =>
    have hset : ∀ x, Ticked (a.setChild x) := by intro x; cases a; exact h
    constructor
    · intro a' ha
      simp only [Frame.callAt] at ha
      (repeat' split at ha) <;> cases ha
      exact hset _
    · intro e a' ha
      simp only [Frame.callAt] at ha
      (repeat' split at ha) <;> cases ha
      exact hset _

/-! ## Series of calls -/

theorem noWhole_tail {x : Nat × Call} {r : List (Nat × Call)} (h : NoWhole (x :: r)) : NoWhole r :=
  fun d u v hm => h d u v (List.mem_cons_of_mem _ hm)

theorem noWhole_snoc {x : Nat × Call} {l r : List (Nat × Call)} (hl : NoWhole l) (h : NoWhole (x :: r)) :
    NoWhole (l ++ [x]) := by
  intro d u v hm
  rcases List.mem_append.1 hm with hm | hm
  · exact hl d u v hm
  · exact h d u v (by rw [List.mem_singleton.1 hm]; simp)

/-- A series of calls on the current handles. -/
theorem neat_run {μ : Mem} {mk : Maybe} {o : Obj} {a a' : Frame} {F : Foot} {t : T}
    {pre cs good : List (Nat × Call)} (grow : Nat → Nat) (hp : Partial t a pre)
    (h : Sim μ mk o a F) (hn : Neat fr o a) (hb : o.begun = true → a.begun = true) (ht : Ticked a)
    (hc : ∀ d u v, (d, Call.assignSelf u v) ∈ cs → Complete u v) (hw : fr = true → NoWhole pre ∧ NoWhole cs)
    (hpl : play a cs = some (a', good)) :
    ∃ μ' mk' o' F' g, run false grow ⟨μ, mk, o⟩ (onCurrent a cs) = some (⟨μ', mk', o'⟩, g) ∧
      Sim μ' mk' o' a' F' ∧ Neat fr o' a' ∧ (o'.begun = true → a'.begun = true) ∧ Ticked a' := by
  induction cs generalizing μ mk o a F pre good with
  | nil => cases hpl; exact ⟨μ, mk, o, F, [], rfl, h, hn, hb, ht⟩
  | cons x r ih =>
    obtain ⟨d, c⟩ := x
    have hc1 : ∀ u v, c = .assignSelf u v → Complete u v := fun u v hu => hc d u v (by simp [hu])
    have hc2 : ∀ d u v, (d, Call.assignSelf u v) ∈ r → Complete u v :=
      fun d u v hu => hc d u v (List.mem_cons_of_mem _ hu)
    have hst := sim_callAt false grow hp h d c hc1
    have hinv := callAt_inv hp d c
    have htk := ticked_callAt hp ht d c
    have hnt := neat_callAt grow hp h hn (fun h => (hw h).1) d c
    have hbl := begun_lift (μ := μ) (mk := mk) (repr := false) (grow := grow) hb d c
    simp only [play] at hpl
    simp only [onCurrent, run]
    cases ho : a.callAt d c with
    | ok b =>
      rw [ho] at hpl hst hnt hbl
      simp only at hpl
      obtain ⟨μ1, mk1, o1, F1, h1, h2, -, -⟩ := hst
      rw [h1] at hnt hbl
      cases hb' : play b r with
      | none => rw [hb'] at hpl; cases hpl
      | some q =>
        obtain ⟨b', g'⟩ := q
        rw [hb'] at hpl
        cases hpl
        obtain ⟨μ2, mk2, o2, F2, g, h3, h4⟩ := ih (hinv.1 b ho) h2 hnt hbl (htk.1 b ho) hc2 (fun h => ⟨noWhole_snoc (hw h).1 (hw h).2, noWhole_tail (hw h).2⟩) hb'
        refine ⟨μ2, mk2, o2, F2, (current d a, c) :: g, ?_, h4⟩
        rw [h1]
        simp only [h3, Option.map_some]
    | err e b =>
      rw [ho] at hpl hst hnt hbl
      simp only at hpl
      obtain ⟨μ1, mk1, o1, F1, h1, h2, -, -⟩ := hst
      rw [h1] at hnt hbl
      obtain ⟨μ2, mk2, o2, F2, g, h3, h4⟩ := ih (hinv.2 e b ho) h2 hnt hbl (htk.2 e b ho) hc2 (fun h => ⟨(hw h).1, noWhole_tail (hw h).2⟩) hpl
      refine ⟨μ2, mk2, o2, F2, g, ?_, h4⟩
      rw [h1]
      simp only [h3]
    | panic => rw [ho] at hpl; cases hpl
    | noHandle => rw [ho] at hpl; cases hpl

/-- Once the builder has a value, nothing reaches it. -/
theorem neat_still {μ : Mem} {mk : Maybe} {o : Obj} {a : Frame} {F : Foot} {t : T} {cs : List (Nat × Call)}
    (hp : Partial t a cs) (h : Sim μ mk o a F) (hn : Neat fr o a) (hb : o.begun = true → a.begun = true)
    (ht : Ticked a) (hwh : fr = true → NoWhole cs) (hm : a.m = .value) :
    ∃ p, Still fr μ.next μ p t ⟨μ, mk, o⟩ ∧ p.1 < μ.next ∧ RepT μ t a.w (μ.read p) F := by
  have hta := partial_ty hp
  have hc := partial_done hp hm
  have hh := sim_head h
  obtain ⟨p, hw, hown, hrep⟩ := sim_value hp h hm
  rw [hta] at hrep
  refine ⟨p, ⟨hh.ty.trans hta, hh.mark.trans hm, hw, keeps_refl (Nat.le_refl _), ?_, ?_⟩, hown.root, hrep⟩
  · intro hpn hob
    replace hpn : parts o.ty ≠ [] := hpn
    show o.ph = .finished
    rw [hh.ph (by rw [← hh.ty]; exact hpn)]
    have hnt : parts t ≠ [] := by rw [← hta, ← hh.ty]; exact hpn
    cases hp with
    | done b ph s f _ hph hop =>
      rcases hob with hfr | hob
      · exact hph (opened_begun hop hnt (hwh hfr))
      · exact hph (hb hob)
    | _ => cases hm
  · intro i k hk
    rcases neat_rest hn hc i k hk with hk' | ⟨⟨fs, fd, hs, hf, hr⟩, h2, -, h4, q, hq, hkm⟩
    · exact Or.inl (hk'.1 _)
    · rw [hw] at hq
      cases hq
      rw [hh.ty, hta] at hs
      obtain ⟨l, xs, G, e1, e2, e3, e4, -, -, e7⟩ := (repT_struct hs).1 hrep
      rw [hh.s ⟨fs, by rw [hta]; exact hs⟩] at h2
      obtain ⟨v, hv⟩ := ht hm l i e1 h2
      have hlt : i < xs.length := by rw [e4]; exact (List.getElem?_eq_some_iff.1 hf).1
      have hx := List.getElem?_eq_getElem hlt
      have hrf := e7 i fd (some v) _ hf hv hx
      have hval : ∃ y, xs[i] = .maybe .value y := by
        unfold RepField at hrf
        simp only [hr, Bool.false_eq_true, if_false] at hrf
        split at hrf
        · obtain ⟨r, H, he, -⟩ := hrf; exact ⟨_, he⟩
        · obtain ⟨y, he, -⟩ := hrf; exact ⟨y, he⟩
      obtain ⟨y, hy⟩ := hval
      rw [hy] at hx
      refine Or.inr ⟨h4 _, (p.1, p.2 ++ [i]), y, hkm, hown.root, ?_, ?_⟩
      · refine valid_append hown.valid ?_
        rw [show (μ.at' p.1).get p.2 = .struct xs from e2]
        exact ⟨_, hx, trivial⟩
      · rw [read_sub, e2]
        simp only [MVal.get, getD_of hx]

end Verif.Handles
