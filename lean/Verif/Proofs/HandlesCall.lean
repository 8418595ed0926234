import Verif.Proofs.HandlesStep

/-! The calls on map and list assemblers in memory. -/

namespace Verif.Handles

open Calls Spec

/-- Handing out the assembler of a field. -/
theorem sim_lend {μ : Mem} {mk : Maybe} {o : Obj} {F : Foot} {t : T} {w : Val} {m : Maybe} {b : Bool} {ph : MaState}
    {s f i s' : Nat} {fs : List FieldT} {fd : FieldT} {l : List (Option Val)}
    (h : Sim μ mk o (.mk t w m b ph s f none) F) (hs : t.shape = .struct fs) (hm : m ≠ .absent)
    (hfd : fs[i]? = some fd) (hw : w = .struct l) (hl : l[i]? = some none)
    (hfr : freshAt t ph s f i = true) (hs' : ∀ j, j ≠ i → s'.testBit j = s.testBit j) :
    ∃ kw km, lendField fd i μ o.w = some (kw, km) ∧
      Sim μ mk (.mk o.ty o.w o.m o.given o.begun .midValue s' i o.cm (modifyKid (Obj.lend kw km) i o.kids))
        (.mk t w m b .midValue s' i (some (fresh fd.ty))) F := by
  cases h with
  | inList _ _ h => cases h
  | inStruct _ _ h => cases h
  | rest h1 h2 h3 h4 h5 h6 h7 =>
    subst hw
    cases how : o.w with
    | none => rw [how] at h7; exact absurd h7.2.1 hm
    | some p =>
      rw [how] at h7
      obtain ⟨hown, hrep⟩ := h7
      obtain ⟨l', xs, G, e1, hrd, hll, hxl, hA, hG, hE⟩ := (repT_struct hs).1 hrep
      cases e1
      have hll : l.length = fs.length := hll
      have hlt : i < fs.length := (List.getElem?_eq_some_iff.1 hfd).1
      obtain ⟨x, hx⟩ : ∃ x, xs[i]? = some x := ⟨_, List.getElem?_eq_getElem (by omega)⟩
      have hR := hE i fd none x hfd hl hx
      have hu : (parts t)[i]? = some fd.ty := by rw [parts_struct hs, List.getElem?_map, hfd]; rfl
      have hkl : o.kids.length = (parts t).length := h5.1
      obtain ⟨k, hk⟩ : ∃ k, o.kids[i]? = some k := ⟨_, List.getElem?_eq_getElem (by
        rw [hkl, parts_struct hs, List.length_map]; exact hlt)⟩
      have hidle : Idle true fd.ty k := by
        have := h5.2 i fd.ty k hu hk (by simp)
        have e : freshAt (Frame.ty (.mk t (.struct l) m b ph s f none)) ph s f i = true := hfr
        simp only [Frame.ph, Frame.s, Frame.f] at this
        rw [e] at this
        exact this
      have hGn : ∀ r, G i r → r < μ.next := fun r hr => h6 r (hG i r hr)
      have hpf : ∀ z : List Nat, μ.read (p.1, p.2 ++ i :: z) = x.get z := by
        intro z
        rw [read_sub, hrd]
        simp only [MVal.get, hx, Option.getD_some]
      have hval : ∀ z, Valid z x → Own μ (p.1, p.2 ++ i :: z) (G i) := by
        intro z hz
        refine ⟨valid_append hown.valid ?_, hown.root, fun hg => hown.out (hG i _ hg)⟩
        rw [show (μ.at' p.1).get p.2 = .struct xs from hrd]
        exact ⟨x, hx, hz⟩
      have hkids : ∀ kw km, Kids (freshAt t .midValue s' i) (some i) (parts t) (modifyKid (Obj.lend kw km) i o.kids) := by
        intro kw km
        refine ⟨by rw [modifyKid_length]; exact h5.1, fun j u k' hu' hk' hj => ?_⟩
        have hj : j ≠ i := fun h => hj (by rw [h])
        rw [modifyKid_get, if_neg (fun h => hj h.symm)] at hk'
        refine idle_weaken ?_ _ _ (h5.2 j u k' hu' hk' (by simp))
        simp only [freshAt, hs, Frame.ty, Frame.s, hs' j hj, Bool.or_eq_true]
        intro h
        rcases h with h | h
        · exact Or.inl h
        · simp at h
      have hkget : ∀ kw km, (modifyKid (Obj.lend kw km) i o.kids)[i]? = some (k.lend kw km) := by
        intro kw km
        rw [modifyKid_get, if_pos rfl, hk]; rfl
      have hhead : ∀ kw km, Head mk (.mk o.ty (some p) o.m o.given o.begun .midValue s' i o.cm
          (modifyKid (Obj.lend kw km) i o.kids)) (.mk t (.struct l) m b .midValue s' i (some (fresh fd.ty))) := by
        intro kw km
        exact ⟨h1.ty, h1.mark, h1.given, h1.begun, fun _ => rfl, fun _ => rfl, fun _ _ => rfl⟩
      have hmain : ∀ kw km, Holds μ kw fd.ty .absent (T.zero fd.ty) (G i) →
          Lent fd p i (some x) .absent .absent (k.lend kw km) (G i) (G i) →
          Sim μ mk (.mk o.ty (some p) o.m o.given o.begun .midValue s' i o.cm (modifyKid (Obj.lend kw km) i o.kids))
            (.mk t (.struct l) m b .midValue s' i (some (fresh fd.ty))) F := by
        intro kw km hh hlent
        refine .inStruct (ck := .absent) (H := G i) (G := G) (p := p) (k := k.lend kw km) (hhead kw km) hs rfl rfl hfd
          (hkids kw km) (hkget kw km) rfl h6 hown rfl hll hrd hxl hA hG (fun j fd' o' x' _ hf ho hx' => hE j fd' o' x' hf ho hx')
          ?_ (sim_fresh km hidle hGn hh)
        show Lent fd p i (xs[i]?) o.cm _ _ _ _
        rw [hx, h4]
        exact hlent
      unfold RepField at hR
      unfold lendField
      by_cases hq : fd.required
      · rw [if_pos hq] at hR
        refine ⟨some (p.1, p.2 ++ [i]), .parent, by simp only [hq, if_true], hmain _ _ ⟨hval [] trivial, ?_⟩ ?_⟩
        · rw [hpf []]; exact hR
        · unfold Lent
          rw [if_pos hq]
          cases k
          exact ⟨rfl, rfl, rfl, rfl⟩
      · rw [if_neg hq] at hR
        by_cases hb : FieldT.byRef fd
        · rw [if_pos hb] at hR
          subst hR
          refine ⟨none, .mem (p.1, p.2 ++ [i]), ?_, hmain _ _ ⟨?_, rfl, rfl⟩ ?_⟩
          · simp only [hq, hb, if_true, if_false, hpf [0], Bool.false_eq_true, MVal.get]
          · unfold FieldT.byRef at hb
            cases hsf : fd.ty.shape with
            | struct fs => exact ⟨fs, hsf⟩
            | _ => rw [hsf] at hb; cases hb
          · unfold Lent
            rw [if_neg hq, if_pos hb]
            cases k
            exact ⟨rfl, rfl, rfl, fun _ h => h, fun q hq => by cases hq⟩
        · rw [if_neg hb] at hR
          obtain ⟨y, hy, hR⟩ := hR
          subst hy
          refine ⟨some (p.1, p.2 ++ [i, 0]), .mem (p.1, p.2 ++ [i]), ?_, hmain _ _ ⟨hval [0] trivial, ?_⟩ ?_⟩
          · simp only [hq, hb, if_false, Bool.false_eq_true]
          · rw [hpf [0]]; exact hR
          · unfold Lent
            rw [if_neg hq, if_neg hb]
            cases k
            exact ⟨rfl, rfl, rfl, rfl, y, rfl⟩

theorem bit_other {s i : Nat} (h : s.testBit i = false) (j : Nat) (hj : j ≠ i) :
    (s + 1 <<< i).testBit j = s.testBit j := by
  rw [Nat.one_shiftLeft, testBit_add_two_pow _ _ _ h]
  have : ¬ i = j := fun h => hj h.symm
  simp [this]

theorem sim_valid {μ : Mem} {mk : Maybe} {o : Obj} {a : Frame} {F : Foot} (h : Sim μ mk o a F) :
    ∀ p, o.w = some p → Valid p.2 (μ.at' p.1) := fun _ hp => (sim_own h hp).valid

theorem steps_assembleEntry {μ : Mem} {mk : Maybe} {o : Obj} {a : Frame} {F : Foot} {t : T} {cs : List (Nat × Call)}
    (repr : Bool) (x : Bytes) (hp : Partial t a cs) (hb : a.begun = true) (h : Sim μ mk o a F) :
    Steps μ o F (assembleEntry repr x ⟨μ, mk, o⟩) (Calls.assembleEntry x a) := by
  have ht := partial_ty hp
  have hot := (sim_head h).ty
  unfold Calls.assembleEntry assembleEntry
  simp only [hot, ht]
  cases hs : t.shape with
  | struct fs =>
    simp only
    have hr := sim_ready repr hp (parts_ne_struct hs) h
    cases hra : Calls.ready a with
    | none =>
      rw [hra] at hr
      simp only at hr
      rw [hr]
      exact rfl
    | some a1 =>
      rw [hra] at hr
      obtain ⟨μ1, o1, F1, hr1, hsim, heff, hom, _, _, _⟩ := hr
      rw [hr1]
      obtain ⟨l, es, s, f, rfl, he, hbits, _⟩ := ready_struct hp hs hb hra
      have hos : o1.s = s := (sim_head hsim).s ⟨fs, hs⟩
      cases ho1 : o1 with
      | mk ot ow om g ob oph os of ocm kids =>
      rw [ho1] at hos
      replace hos : os = s := hos
      subst hos
      simp only
      cases hk : takeKey fs x os with
      | err e =>
        rw [← ho1]
        exact ⟨μ1, mk, o1, F1, rfl, hsim, heff, hom⟩
      | panic => exact rfl
      | ok p =>
        obtain ⟨i, fd⟩ := p
        obtain ⟨hf, hn, hbit⟩ := takeKey_ok hk
        obtain ⟨kw, km, hl, hsim'⟩ := sim_lend (s' := os + 1 <<< i) hsim hs (by simp) hf rfl
          (free_of_bits he hbits hf hbit) (by simp [freshAt, hs, hbit]) (bit_other hbit)
        rw [ho1] at hl hsim'
        simp only
        simp only [Obj.w] at hl
        rw [hl]
        refine ⟨μ1, mk, _, F1, rfl, hsim', ?_, ?_⟩
        · rw [ho1] at heff
          exact heff
        · rw [ho1] at hom
          exact hom
  | _ => exact trivial

theorem steps_assembleKey {μ : Mem} {mk : Maybe} {o : Obj} {a : Frame} {F : Foot} {t : T} {cs : List (Nat × Call)}
    (repr : Bool) (hp : Partial t a cs) (h : Sim μ mk o a F) :
    Steps μ o F (assembleKey repr ⟨μ, mk, o⟩) (Calls.assembleKey a) := by
  have ht := partial_ty hp
  have hot := (sim_head h).ty
  unfold Calls.assembleKey assembleKey
  simp only [hot, ht]
  cases hs : t.shape with
  | struct fs =>
    simp only
    have hr := sim_ready repr hp (parts_ne_struct hs) h
    cases hra : Calls.ready a with
    | none =>
      rw [hra] at hr
      simp only at hr
      rw [hr]
      exact rfl
    | some a1 =>
      rw [hra] at hr
      obtain ⟨μ1, o1, F1, hr1, hsim, heff, hom, hph, hch, hty⟩ := hr
      rw [hr1]
      obtain ⟨t', w, m, b, ph, s, f, ch⟩ := a1
      obtain ⟨ot, ow, om, g, ob, oph, os, of, ocm, kids⟩ := o1
      replace hph : ph = .initial := hph
      subst hph
      replace hch : ch = none := hch
      subst hch
      replace hty : t' = t := hty
      subst hty
      refine ⟨μ1, mk, _, F1, rfl, ?_, heff, hom⟩
      cases hsim with
      | inList _ _ h => cases h
      | inStruct _ _ h => cases h
      | rest h1 h2 h3 h4 h5 h6 h7 =>
        refine .rest ⟨h1.ty, h1.mark, h1.given, h1.begun, fun _ => rfl, h1.s, ?_⟩ rfl (by simp [Frame.ph]) h4 ⟨h5.1, ?_⟩ h6 h7
        · intro h; rcases h with h | h <;> cases h
        · intro i u k hu hk _
          refine idle_weaken ?_ _ _ (h5.2 i u k hu hk (by simp))
          simp [freshAt, hs, Frame.ty, Frame.ph, Frame.s, Frame.f]
  | _ => exact trivial

theorem steps_keyAssign {μ : Mem} {mk : Maybe} {o : Obj} {a : Frame} {F : Foot} {t : T} {cs : List (Nat × Call)}
    (x : Bytes) (hp : Partial t a cs) (h : Sim μ mk o a F) :
    Steps μ o F (keyAssign x ⟨μ, mk, o⟩) (Calls.keyAssign x a) := by
  have ht := partial_ty hp
  have hhead := sim_head h
  obtain ⟨t', w, m, b, ph, s, f, ch⟩ := a
  obtain ⟨ot, ow, om, g, ob, oph, os, of, ocm, kids⟩ := o
  replace ht : t' = t := ht
  subst ht
  have hty : ot = t' := hhead.ty
  subst hty
  cases hs : ot.shape with
  | struct fs =>
    have hph : oph = ph := hhead.ph (parts_ne_struct hs)
    subst hph
    have hos : os = s := hhead.s ⟨fs, hs⟩
    subst hos
    simp only [Calls.keyAssign, keyAssign, hs]
    by_cases hk : oph = .midKey
    · subst hk
      simp only [ne_eq, not_true_eq_false, if_false]
      cases hk : takeKey fs x os with
      | err e => exact steps_same h
      | panic => exact rfl
      | ok p =>
        obtain ⟨i, fd⟩ := p
        obtain ⟨hf, hn, hbit⟩ := takeKey_ok hk
        refine ⟨μ, mk, _, F, rfl, ?_, ?_, rfl⟩
        · cases h with
          | inList _ _ _ h => cases h
          | inStruct _ _ _ h => cases h
          | rest h1 h2 h3 h4 h5 h6 h7 =>
            refine .rest ⟨rfl, h1.mark, h1.given, h1.begun, fun _ => rfl, fun _ => rfl, fun _ _ => rfl⟩ h2
              (by simp [Frame.ph]) h4 ⟨h5.1, ?_⟩ h6 h7
            intro j u k hu hk _
            refine idle_weaken ?_ _ _ (h5.2 j u k hu hk (by simp))
            simp only [freshAt, hs, Frame.ty, Frame.ph, Frame.s, Frame.f]
            by_cases hj : j = i
            · subst hj; simp [hbit]
            · rw [bit_other hbit j hj]; simp [hj]
        · exact eff_refl h
    · simp only [ne_eq, hk, not_false_eq_true, if_true]
      exact rfl
  | _ =>
    simp only [Calls.keyAssign, hs]
    exact trivial

theorem steps_keyAssignOther {μ : Mem} {mk : Maybe} {o : Obj} {a : Frame} {F : Foot} (h : Sim μ mk o a F) :
    Steps μ o F (keyAssignOther ⟨μ, mk, o⟩) (Calls.keyAssignOther a) := by
  have hot := (sim_head h).ty
  unfold Calls.keyAssignOther keyAssignOther
  simp only [hot]
  cases hs : a.ty.shape with
  | struct fs => exact steps_same h
  | _ => exact trivial

theorem steps_finish {μ : Mem} {mk : Maybe} {o : Obj} {a : Frame} {F : Foot} {t : T} {cs : List (Nat × Call)}
    (repr : Bool) (hp : Partial t a cs) (hb : a.begun = true) (h : Sim μ mk o a F) :
    Steps μ o F (finish repr ⟨μ, mk, o⟩) (Calls.finish a) := by
  have ht := partial_ty hp
  have hot := (sim_head h).ty
  unfold Calls.finish finish
  simp only [hot, ht]
  cases hs : t.shape with
  | struct fs =>
    simp only
    have hr := sim_ready repr hp (parts_ne_struct hs) h
    cases hra : Calls.ready a with
    | none =>
      rw [hra] at hr
      simp only at hr
      rw [hr]
      exact rfl
    | some a1 =>
      rw [hra] at hr
      obtain ⟨μ1, o1, F1, hr1, hsim, heff, hom, _, _, _⟩ := hr
      rw [hr1]
      obtain ⟨l, es, s, f, rfl, he, hbits, _⟩ := ready_struct hp hs hb hra
      obtain ⟨ot, ow, om, g, ob, oph, os, of, ocm, kids⟩ := o1
      have hos : os = s := (sim_head hsim).s ⟨fs, hs⟩
      subst hos
      simp only
      by_cases hsu : os &&& sufficient fs = sufficient fs
      · simp only [hsu, ne_eq, not_true_eq_false, if_false]
        refine ⟨μ1, _, _, F1, rfl, ?_, heff, hom⟩
        cases hsim with
        | inList _ _ h => cases h
        | inStruct _ _ h => cases h
        | rest h1 h2 h3 h4 h5 h6 h7 =>
          refine .rest ⟨h1.ty, rfl, h1.given, h1.begun, fun _ => rfl, fun _ => rfl, ?_⟩ rfl (by simp [Frame.ph]) h4
            ⟨h5.1, ?_⟩ h6 ?_
          · intro h; rcases h with h | h <;> cases h
          · intro i u k hu hk _
            refine idle_weaken ?_ _ _ (h5.2 i u k hu hk (by simp))
            simp [freshAt, hs, Frame.ty, Frame.ph, Frame.s, Frame.f]
          · cases ow with
            | none => exact absurd h7.2.1 (by simp [Frame.m])
            | some p => exact h7
      · simp only [ne_eq, hsu, not_false_eq_true, if_true]
        exact ⟨μ1, mk, _, F1, rfl, hsim, heff, hom⟩
  | list e =>
    simp only
    have hr := sim_ready repr hp (parts_ne_list hs) h
    cases hra : Calls.ready a with
    | none =>
      rw [hra] at hr
      simp only at hr
      rw [hr]
      exact rfl
    | some a1 =>
      rw [hra] at hr
      obtain ⟨μ1, o1, F1, hr1, hsim, heff, hom, _, _, _⟩ := hr
      rw [hr1]
      obtain ⟨vs, es, n, s, f, rfl, he, _⟩ := ready_list hp hs hb hra
      obtain ⟨ot, ow, om, g, ob, oph, os, of, ocm, kids⟩ := o1
      refine ⟨μ1, _, _, F1, rfl, ?_, heff, hom⟩
      cases hsim with
      | inList _ _ h => cases h
      | inStruct _ _ h => cases h
      | rest h1 h2 h3 h4 h5 h6 h7 =>
        refine .rest ⟨h1.ty, rfl, h1.given, h1.begun, fun _ => rfl, h1.s, ?_⟩ rfl (by simp [Frame.ph]) h4
          ⟨h5.1, ?_⟩ h6 ?_
        · intro h; rcases h with h | h <;> cases h
        · intro i u k hu hk _
          refine idle_weaken ?_ _ _ (h5.2 i u k hu hk (by simp))
          simp [freshAt, hs, Frame.ty]
        · cases ow with
          | none => exact absurd h7.2.1 (by simp [Frame.m])
          | some p => exact h7
  | _ => exact trivial

/-- Handing out the assembler of a new element. -/
theorem sim_row {μ : Mem} {mk : Maybe} {o : Obj} {F : Foot} {t e : T} {b : Bool} {s f r cap : Nat}
    {vs : List Val} {xs : List MVal} {G : Nat → Foot} {p : Ptr} {k : Obj} (hs : t.shape = .list e)
    (h1 : Head mk o (.mk t (.list vs) .midvalue b .initial s f none)) (h4 : o.cm = .absent) (hk : o.kids = [k])
    (hidle : Idle true e k) (hF : ∀ r, F r → r < μ.next) (hown : Own μ p F) (hp : o.w = some p)
    (hrd : μ.read p = .slice r (vs.length + 1) cap) (hcap : vs.length + 1 ≤ cap) (hr : F r)
    (hat : μ.at' r = .arr xs) (hz : xs[vs.length]? = some (T.zeroM e)) (hA : Apart G)
    (hG : ∀ i q, G i q → F q ∧ q ≠ r)
    (hE : ∀ i v x, vs[i]? = some v → xs[i]? = some x → RepT μ e v x (G i)) :
    Sim μ mk (.mk o.ty o.w o.m o.given o.begun .midValue o.s o.f o.cm
        (modifyKid (Obj.lend (some (r, [vs.length])) .parent) 0 o.kids))
      (.mk t (.list vs) .midvalue b .midValue s f (some (fresh e))) F := by
  have hlt : vs.length < xs.length := (List.getElem?_eq_some_iff.1 hz).1
  have hkk : (k.lend (some (r, [vs.length])) .parent).w = some (r, [vs.length]) := by cases k; rfl
  have hkm : (k.lend (some (r, [vs.length])) .parent).m = .parent := by cases k; rfl
  rw [hk]
  refine .inList (p := p) (k := k.lend (some (r, [vs.length])) .parent) ⟨h1.ty, h1.mark, h1.given, h1.begun, fun _ => rfl, h1.s, ?_⟩ hs rfl rfl rfl hp hF hown rfl hrd hcap hr hat
    hlt hA hG hE hkk hkm ?_
  · rintro - ⟨fs, hf⟩
    rw [show (Frame.ty _) = t from rfl, hs] at hf; cases hf
  · show Sim μ o.cm _ _ _
    rw [h4]
    refine sim_fresh _ hidle (fun q hq => hF q (hG _ q hq).1) ⟨⟨?_, hF r hr, fun hq => (hG _ _ hq).2 rfl⟩, ?_⟩
    · simp only
      rw [hat]
      exact ⟨_, hz, trivial⟩
    · simp only [Mem.read, hat, MVal.get, hz, Option.getD_some]
      exact repT_zero _ _ _

theorem steps_assembleValue {μ : Mem} {mk : Maybe} {o : Obj} {a : Frame} {F : Foot} {t : T} {cs : List (Nat × Call)}
    (repr : Bool) (grow : Nat → Nat) (hp : Partial t a cs) (hb : a.begun = true) (h : Sim μ mk o a F) :
    Steps μ o F (assembleValue repr grow ⟨μ, mk, o⟩) (Calls.assembleValue a) := by
  have ht := partial_ty hp
  have hot := (sim_head h).ty
  cases hs : t.shape with
  | struct fs =>
    have hhead := sim_head h
    obtain ⟨t', w, m, b, ph, s, f, ch⟩ := a
    obtain ⟨ot, ow, om, g, ob, oph, os, of, ocm, kids⟩ := o
    replace ht : t' = t := ht
    subst ht
    have hty : ot = t' := hhead.ty
    subst hty
    have hph : oph = ph := hhead.ph (parts_ne_struct hs)
    subst hph
    have hos : os = s := hhead.s ⟨fs, hs⟩
    subst hos
    cases oph with
    | expectValue =>
      have hof : of = f := hhead.f (Or.inl rfl) ⟨fs, hs⟩
      subst hof
      simp only [Calls.assembleValue, assembleValue, Frame.ty, Obj.ty, hs]
      cases hp with
      | structExpect h' s0 _ he hbits hf hl =>
        rw [hs] at h'
        cases h'
        rename_i l es fd
        replace hf : fs[of]? = some fd := hf
        obtain ⟨kw, km, hle, hsim'⟩ := sim_lend (s' := s0 + 1 <<< of) (i := of) h hs (by simp) hf rfl hl
          (by simp [freshAt, hs]) (fun _ _ => rfl)
        simp only [hf]
        simp only [Obj.w] at hle
        rw [hle]
        exact ⟨μ, mk, _, F, rfl, hsim', eff_refl h, rfl⟩
      | done b' ph' s' f' hm hbb =>
        cases hbb hb
    | _ =>
      simp only [Calls.assembleValue, assembleValue, Frame.ty, Obj.ty, hs]
      exact rfl
  | list e =>
    unfold Calls.assembleValue assembleValue
    simp only [hot, ht, hs]
    have hr := sim_ready repr hp (parts_ne_list hs) h
    cases hra : Calls.ready a with
    | none =>
      rw [hra] at hr
      simp only at hr
      rw [hr]
      exact rfl
    | some a1 =>
      rw [hra] at hr
      obtain ⟨μ1, o1, F1, hr1, hsim, heff, hom, _, _, _⟩ := hr
      rw [hr1]
      obtain ⟨vs, es, n, s, f, rfl, he, _⟩ := ready_list hp hs hb hra
      have hsim1 := hsim
      cases hsim with
      | inList _ _ h => cases h
      | inStruct _ _ h => cases h
      | rest h1 h2 h3 h4 h5 h6 h7 =>
        cases how : o1.w with
        | none => rw [how] at h7; exact absurd h7.2.1 (by simp [Frame.m])
        | some p =>
          rw [how] at h7
          obtain ⟨hown, hrep⟩ := h7
          obtain ⟨vs', r, cap, e1, hrd, hle, hcap⟩ := (repT_list hs).1 hrep
          cases e1
          have hle : vs.length ≤ cap := hle
          replace hrd : μ1.read p = .slice r vs.length cap := hrd
          obtain ⟨k, hk⟩ : ∃ k, o1.kids = [k] := by
            have : o1.kids.length = (parts t).length := h5.1
            rw [parts_list hs] at this
            match o1.kids, this with
            | [k], _ => exact ⟨k, rfl⟩
          have hidle : Idle true e k := by
            have := h5.2 0 e k (by show (parts t)[0]? = _; rw [parts_list hs]; rfl) (by rw [hk]; rfl) (by simp)
            have ef : freshAt (Frame.ty (.mk t (.list vs) .midvalue true .initial s f none)) .initial s f 0 = true := by
              simp [freshAt, Frame.ty, hs]
            simp only [Frame.ph, Frame.s, Frame.f] at this
            rw [ef] at this
            exact this
          have key : ∃ μ' r' F' , appendZero grow e p μ1 = some (μ', (r', [vs.length])) ∧
              Eff μ1 μ' o1.w o1.w F1 F' ∧
              Sim μ' mk (.mk o1.ty o1.w o1.m o1.given o1.begun .midValue o1.s o1.f o1.cm
                (modifyKid (Obj.lend (some (r', [vs.length])) .parent) 0 o1.kids))
                (.mk t (.list vs) .midvalue true .midValue s f (some (fresh e))) F' := by
            by_cases hlt : vs.length < cap
            · rcases hcap with hcap | ⟨xs, G, hat, hlen, hFr, hA, hG, hE⟩
              · omega
              have hlen : vs.length ≤ xs.length := hlen
              have hrp : r ≠ p.1 := fun h => hown.out (h ▸ hFr)
              let ys := xs.take vs.length ++ T.zeroM e :: xs.drop (vs.length + 1)
              let μ2 := μ1.write (r, []) (.arr ys)
              have hμ2 : ∀ q, q ≠ r → μ2.at' q = μ1.at' q := fun q hq => write_other _ _ hq
              have hμ2r : μ2.at' r = .arr ys := by
                have := write_same μ1 (r, []) (.arr ys)
                simpa [MVal.set] using this
              have hown2 : Own μ2 p F1 := ⟨by rw [hμ2 _ (fun h => hrp h.symm)]; exact hown.valid, hown.root, hown.out⟩
              refine ⟨μ2.write p (.slice r (vs.length + 1) cap), r, F1, ?_, ?_, ?_⟩
              · unfold appendZero
                simp only [hrd, if_pos hlt, hat]
                rfl
              · refine ⟨Nat.le_refl _, fun q _ hq hpq => ?_, fun q hq => ?_, fun h => Or.inl h, fun _ h => Or.inl h⟩
                · rw [write_other _ _ (hpq p how), hμ2 q (fun h => hq (h ▸ hFr))]
                · rw [how] at hq
                  cases hq
                  refine ⟨how, ?_⟩
                  rw [read_write hown2.valid, write_same, hμ2 _ (fun h => hrp h.symm)]
              · refine sim_row (p := p) (r := r) (cap := cap) (xs := ys) (G := G) hs h1 h4 hk hidle h6 (own_write hown2 _) how
                  (read_write hown2.valid _) hlt hFr ?_ ?_ hA hG ?_
                · rw [write_other _ _ hrp, hμ2r]
                · have e3 : (xs.take vs.length).length = vs.length := by simp; omega
                  show (xs.take vs.length ++ _)[vs.length]? = _
                  rw [List.getElem?_append_right (by omega), e3, Nat.sub_self]
                  rfl
                · intro i v x hv hx
                  have hi : i < vs.length := (List.getElem?_eq_some_iff.1 hv).1
                  replace hx : (xs.take vs.length ++ T.zeroM e :: xs.drop (vs.length + 1))[i]? = some x := hx
                  rw [List.getElem?_append_left (by simp; omega), List.getElem?_take_of_lt hi] at hx
                  refine repT_frame (hE i v x hv hx) (fun _ h => h) fun q hq => ?_
                  rw [write_other _ _ (fun h => hown.out (h ▸ (hG i q hq).1)), hμ2 _ (hG i q hq).2]
            · have hxs : ∃ xs G, (if cap = 0 then [] else (match μ1.at' r with
                    | .arr vs' => vs'.take vs.length
                    | _ => [])) = xs ∧ xs.length = vs.length ∧ Apart G ∧ (∀ i q, G i q → F1 q) ∧
                  ∀ i v x, vs[i]? = some v → xs[i]? = some x → RepT μ1 e v x (G i) := by
                by_cases hc0 : cap = 0
                · have hv0 : vs = [] := List.length_eq_zero_iff.1 (by omega)
                  subst hv0
                  exact ⟨[], fun _ _ => False, by rw [if_pos hc0], rfl, fun _ _ _ h => h.elim, fun _ _ h => h.elim,
                    fun i v x h => by simp at h⟩
                · rcases hcap with hcap | ⟨xs, G, hat, hlen, hFr, hA, hG, hE⟩
                  · exact absurd hcap hc0
                  have hlen : vs.length ≤ xs.length := hlen
                  refine ⟨xs.take vs.length, G, by rw [if_neg hc0, hat], by simp; omega, hA, fun i q hq => (hG i q hq).1, ?_⟩
                  intro i v x hv hx
                  have hi : i < vs.length := (List.getElem?_eq_some_iff.1 hv).1
                  rw [List.getElem?_take_of_lt hi] at hx
                  exact hE i v x hv hx
              obtain ⟨xs, G, hxe, hxl, hA, hG, hE⟩ := hxs
              have hown2 := own_alloc hown (.arr (xs ++ [T.zeroM e]))
              have hnp : μ1.next ≠ p.1 := by have := hown.root; omega
              refine ⟨(μ1.alloc (.arr (xs ++ [T.zeroM e]))).write p (.slice μ1.next (vs.length + 1)
                  (max (vs.length + 1) (grow vs.length))), μ1.next, fun q => F1 q ∨ q = μ1.next, ?_, ?_, ?_⟩
              · unfold appendZero
                simp only [hrd, if_neg hlt]
                rw [← hxe]
                rfl
              · rw [how]
                exact eff_trans (fun q hq => by cases hq; exact hown.valid) (how ▸ eff_alloc hsim1 _)
                  (eff_write hown2 _ _ fun _ h => Or.inl h)
              · refine sim_row (p := p) (r := μ1.next) (cap := max (vs.length + 1) (grow vs.length)) (xs := xs ++ [T.zeroM e])
                  (G := G) hs h1 h4 hk hidle ?_ (own_write hown2 _) how
                  (read_write hown2.valid _) (Nat.le_max_left _ _) (Or.inr rfl) ?_ ?_ hA ?_ ?_
                · intro q hq
                  show q < μ1.next + 1
                  rcases hq with hq | hq
                  · have := h6 q hq; omega
                  · omega
                · rw [write_other _ _ hnp, alloc_new]
                · rw [List.getElem?_append_right (by omega), hxl, Nat.sub_self]
                  rfl
                · intro i q hq
                  have := h6 q (hG i q hq)
                  exact ⟨Or.inl (hG i q hq), by omega⟩
                · intro i v x hv hx
                  have hi : i < vs.length := (List.getElem?_eq_some_iff.1 hv).1
                  rw [List.getElem?_append_left (by omega)] at hx
                  refine repT_frame (hE i v x hv hx) (fun _ h => h) fun q hq => ?_
                  have := hG i q hq
                  rw [write_other _ _ (fun h => hown.out (h ▸ this)), alloc_old _ _ (h6 q this)]
          obtain ⟨μ', r', F', hap, heff', hsim'⟩ := key
          obtain ⟨ot, ow, om, g, ob, oph, os, of, ocm, kids⟩ := o1
          replace how : ow = some p := how
          subst how
          simp only [Option.bind_some, hap]
          exact ⟨μ', mk, _, F', rfl, hsim', eff_trans (sim_valid h) heff heff', hom⟩
  | _ =>
    unfold Calls.assembleValue
    simp only [ht, hs]
    exact trivial

/-- A call on an assembler's own handle. -/
theorem sim_call {μ : Mem} {mk : Maybe} {o : Obj} {a : Frame} {F : Foot} {t : T} {cs : List (Nat × Call)}
    (repr : Bool) (grow : Nat → Nat) (hp : Partial t a cs) (h : Sim μ mk o a F) (c : Call)
    (hc : ∀ u v, c = .assignSelf u v → Complete u v) :
    Steps μ o F (call repr grow ⟨μ, mk, o⟩ c) (a.call c) := by
  have hg : o.given = true := (sim_head h).given
  have hb := (sim_head h).begun
  cases c with
  | beginMap => simp only [call, hg, if_true, Frame.call]; exact steps_beginMap hp h
  | beginList n => simp only [call, hg, if_true, Frame.call]; exact steps_beginList n hp h
  | assignNull => simp only [call, hg, if_true, Frame.call]; exact steps_assignNull h
  | assignOther => simp only [call, hg, if_true, Frame.call]; exact steps_same h
  | assignString x => simp only [call, hg, if_true, Frame.call]; exact steps_assignString x hp h
  | assignLink x => simp only [call, hg, if_true, Frame.call]; exact steps_assignLink x hp h
  | assignSelf u v => simp only [call, hg, if_true, Frame.call]; exact steps_assignSelf u v (hc u v rfl) hp h
  | assembleEntry x =>
    by_cases hab : a.begun = true
    · simp only [call, hb hab, hab, if_true, Frame.call]; exact steps_assembleEntry repr x hp hab h
    · simp only [Frame.call, hab]; exact trivial
  | assembleKey =>
    by_cases hab : a.begun = true
    · simp only [call, hb hab, hab, if_true, Frame.call]; exact steps_assembleKey repr hp h
    · simp only [Frame.call, hab]; exact trivial
  | keyAssign x =>
    by_cases hab : a.begun = true
    · simp only [call, hb hab, hab, if_true, Frame.call]; exact steps_keyAssign x hp h
    · simp only [Frame.call, hab]; exact trivial
  | keyAssignOther =>
    by_cases hab : a.begun = true
    · simp only [call, hb hab, hab, if_true, Frame.call]; exact steps_keyAssignOther h
    · simp only [Frame.call, hab]; exact trivial
  | assembleValue =>
    by_cases hab : a.begun = true
    · simp only [call, hb hab, hab, if_true, Frame.call]; exact steps_assembleValue repr grow hp hab h
    · simp only [Frame.call, hab]; exact trivial
  | finish =>
    by_cases hab : a.begun = true
    · simp only [call, hb hab, hab, if_true, Frame.call]; exact steps_finish repr hp hab h
    · simp only [Frame.call, hab]; exact trivial

end Verif.Handles
