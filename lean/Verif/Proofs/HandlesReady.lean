import Verif.Proofs.Handles

/-! `valueFinishTidy` in memory. -/

namespace Verif.Handles

open Calls Spec

theorem write_sub (μ : Mem) (p : Ptr) (q : List Nat) (y : MVal) :
    μ.write (p.1, p.2 ++ q) y = μ.write p ((μ.read p).set q y) := by
  unfold Mem.write Mem.read
  congr 1
  funext r
  by_cases h : r = p.1
  · subst h
    simp only [if_pos, set_append]
  · simp only [if_neg h]

theorem read_sub (μ : Mem) (p : Ptr) (q : List Nat) : μ.read (p.1, p.2 ++ q) = (μ.read p).get q := by
  unfold Mem.read
  rw [get_append]

theorem getD_of {α : Type} {xs : List α} {i : Nat} {x y : α} (h : xs[i]? = some x) : (xs[i]?).getD y = x := by
  rw [h]; rfl

theorem partial_done {t : T} {a : Frame} {cs : List (Nat × Call)} (h : Partial t a cs) (hm : a.m = .value) :
    a.child = none := by
  cases h with
  | done => rfl
  | _ => cases hm

/-- The value of an assembler that is done. -/
theorem sim_value {μ : Mem} {mk : Maybe} {o : Obj} {a : Frame} {F : Foot} {t : T} {cs : List (Nat × Call)}
    (hp : Partial t a cs) (h : Sim μ mk o a F) (hm : a.m = .value) :
    ∃ q, o.w = some q ∧ Own μ q F ∧ RepT μ a.ty a.w (μ.read q) F := by
  have hc := partial_done hp hm
  cases h with
  | rest h1 _ _ h4 h5 h6 h7 =>
    cases hw : o.w with
    | none =>
      rw [hw] at h7
      have := h7.2.1
      rw [hm] at this; cases this
    | some q =>
      rw [hw] at h7
      exact ⟨q, rfl, h7.1, h7.2⟩
  | inList _ _ h => rw [hc] at h; cases h
  | inStruct _ _ h => rw [hc] at h; cases h

theorem modifyKid_get {f : Obj → Obj} {i j : Nat} {ks : List Obj} :
    (modifyKid f i ks)[j]? = if i = j then (ks[j]?).map f else ks[j]? := by
  unfold modifyKid
  cases h : ks[i]? with
  | none =>
    by_cases hij : i = j
    · subst hij; simp [h]
    · simp [hij]
  | some k =>
    by_cases hij : i = j
    · subst hij
      have hlt : i < ks.length := (List.getElem?_eq_some_iff.1 h).1
      simp only [List.getElem?_set_self hlt, if_true, h, Option.map_some]
    · simp only [hij, if_false, List.getElem?_set_ne hij]

theorem modifyKid_length {f : Obj → Obj} {i : Nat} {ks : List Obj} : (modifyKid f i ks).length = ks.length := by
  unfold modifyKid
  split <;> simp

theorem parts_struct {t : T} {fs : List FieldT} (h : t.shape = .struct fs) : parts t = fs.map FieldT.ty := by
  simp [parts, h]

theorem parts_list {t e : T} (h : t.shape = .list e) : parts t = [e] := by
  simp [parts, h]

theorem parts_ne_struct {t : T} {fs : List FieldT} (h : t.shape = .struct fs) : parts t ≠ [] := by
  cases t <;> cases h <;> decide

theorem parts_ne_list {t e : T} (h : t.shape = .list e) : parts t ≠ [] := by
  simp [parts, h]

theorem parts_field {t : T} {fs : List FieldT} (h : t.shape = .struct fs) {i : Nat} {u : T}
    (hu : (parts t)[i]? = some u) : ∃ fd, fs[i]? = some fd ∧ fd.ty = u := by
  rw [parts_struct h, List.getElem?_map] at hu
  cases hf : fs[i]? with
  | none => rw [hf] at hu; cases hu
  | some fd => rw [hf] at hu; cases hu; exact ⟨fd, rfl, rfl⟩

theorem repField_frame {μ μ' : Mem} {fd : FieldT} {o : Option Val} {x : MVal} {F F' : Foot}
    (h : RepField (RepT μ) μ fd o x F) (hF : ∀ r, F r → F' r) (hμ : ∀ r, F r → μ'.at' r = μ.at' r) :
    RepField (RepT μ') μ' fd o x F' :=
  repField_imp h hF hμ fun _ _ _ _ hH hH' hR => repT_frame hR hH' fun r hr => hμ r (hH r hr)

theorem struct_bit {t : T} {a : Frame} {cs : List (Nat × Call)} {fs : List FieldT} (h : Partial t a cs)
    (hs : t.shape = .struct fs) (hph : a.ph = .midValue) (hc : a.child ≠ none) : a.s.testBit a.f = true := by
  cases h with
  | idle => exact absurd rfl hc
  | done => exact absurd rfl hc
  | listIdle h => rw [hs] at h; cases h
  | listMid h => rw [hs] at h; cases h
  | structIdle => cases hph
  | structKey => cases hph
  | structExpect => cases hph
  | structMid h s f he hb hf hl =>
    have := (bits_add hb hl (.text []) f).2 ⟨.text [], ?_⟩
    · exact this
    · have hlt := (List.getElem?_eq_some_iff.1 hl).1
      rw [List.getElem?_set_self hlt]

/-- The child of an assembler has had calls of its own. -/
theorem partial_child {t : T} {a ch : Frame} {cs : List (Nat × Call)} (h : Partial t a cs)
    (hc : a.child = some ch) : ∃ u c, Partial u ch c ∧ ((t.shape = .list u) ∨
      ∃ fs fd, t.shape = .struct fs ∧ fs[a.f]? = some fd ∧ fd.ty = u) := by
  cases h with
  | listMid h n s f he hp => cases hc; exact ⟨_, _, hp, Or.inl h⟩
  | structMid h s f he hb hf hl hn hp => cases hc; exact ⟨_, _, hp, Or.inr ⟨_, _, h, hf, rfl⟩⟩
  | _ => cases hc

/-- The state check with `valueFinishTidy`. -/
theorem sim_ready {μ : Mem} {mk : Maybe} {o : Obj} {a : Frame} {F : Foot} {t : T} {cs : List (Nat × Call)}
    (repr : Bool) (hp : Partial t a cs) (hn : parts t ≠ []) (h : Sim μ mk o a F) :
    match Calls.ready a with
    | none => ready repr ⟨μ, mk, o⟩ = none
    | some a' => ∃ μ' o' F', ready repr ⟨μ, mk, o⟩ = some ⟨μ', mk, o'⟩ ∧ Sim μ' mk o' a' F' ∧
        Eff μ μ' o.w o'.w F F' ∧ o'.m = o.m ∧ a'.ph = .initial ∧ a'.child = none ∧ a'.ty = t := by
  have ht := partial_ty hp
  have hsim := h
  cases h with
  | rest h1 h2 h3 h4 h5 h6 h7 =>
    obtain ⟨t', w, m, b, ph, s, f, ch⟩ := a
    replace ht : t' = t := ht
    subst ht
    have h2 : ch = none := h2
    subst h2
    replace hph : o.ph = ph := h1.ph hn
    cases ph with
    | initial =>
      refine ⟨μ, o, F, ?_, hsim, eff_refl hsim, rfl, rfl, rfl, rfl⟩
      simp only [ready, hph]
    | midValue => exact absurd rfl h3
    | _ => simp only [Calls.ready, ready, hph]
  | @inList _ _ _ ch _ e p r cap vs xs G k h1 hs hc hph hk hw hFn hown hav hrd hcap hFr hat hlen hA hG hE hkw hkm hsub =>
    obtain ⟨t', w, m, b, ph, s, f, ch'⟩ := a
    obtain ⟨ot, ow, om, g, ob, oph, os, of, ocm, kids⟩ := o
    replace ht : t' = t := ht
    subst ht
    replace hc : ch' = some ch := hc
    subst hc
    replace hph : ph = .midValue := hph
    subst hph
    replace hav : w = .list vs := hav
    subst hav
    have h2 : oph = .midValue := h1.ph hn
    subst h2
    have h3 : ot = t' := h1.ty
    subst h3
    replace hs : ot.shape = .list e := hs
    replace hk : kids = [k] := hk
    subst hk
    replace hw : ow = some p := hw
    subst hw
    have hm : ocm = ch.m := (sim_head hsub).mark
    obtain ⟨u, c, hpc, hty⟩ := partial_child hp rfl
    have hue : u = e := by
      rcases hty with hty | ⟨fs, fd, hty, _⟩ <;> rw [hs] at hty <;> cases hty
      rfl
    subst hue
    have hct := partial_ty hpc
    simp only [Calls.ready]
    by_cases hv : ch.m = .value
    · rw [if_pos hv]
      rw [hv] at hm
      subst hm
      obtain ⟨q, hq, hqo, hqr⟩ := sim_value hpc hsub hv
      rw [hkw] at hq
      cases hq
      have hidle := sim_idle hsub (partial_done hpc hv)
      rw [hct] at hidle hqr
      refine ⟨μ, .mk ot (some p) om g ob .initial os of .absent (modifyKid (fun o => o.park.reset) 0 [k]), F,
        by simp only [ready, tidy, Obj.ph, hs, if_true], ?_, ?_, rfl, rfl, rfl, rfl⟩
      · refine .rest ⟨rfl, h1.mark, h1.given, h1.begun, fun _ => rfl, ?_, ?_⟩ rfl (by simp [Frame.ph]) rfl ?_ hFn ?_
        · rintro ⟨fs, hf⟩
          rw [show (Frame.ty _) = ot from rfl, hs] at hf; cases hf
        · intro h; rcases h with h | h <;> cases h
        · have hp1 : parts ot = [u] := parts_list hs
          show Kids _ none (parts ot) _
          rw [hp1]
          refine ⟨by simp [Obj.kids, modifyKid_length], fun i v j hv hj _ => ?_⟩
          cases i with
          | succ i => simp at hv
          | zero =>
            cases hv
            rw [Obj.kids, modifyKid_get] at hj
            simp only [if_true, List.getElem?_cons_zero, Option.map_some] at hj
            cases hj
            exact idle_weaken (fun _ => rfl) _ _ (idle_reset _ _ (idle_park hidle))
        · refine ⟨hown, (repT_list hs).2 ⟨vs ++ [ch.w], r, cap, rfl, ?_, ?_, Or.inr ⟨xs, G, hat, ?_, hFr, hA, hG, ?_⟩⟩⟩
          · rw [hrd]; simp
          · simp; omega
          · simp; omega
          · intro i v x hv hx
            by_cases hi : i < vs.length
            · rw [List.getElem?_append_left hi] at hv
              exact hE i v x hv hx
            · have hi' : i = vs.length := by
                have := (List.getElem?_eq_some_iff.1 hv).1
                simp at this; omega
              subst hi'
              rw [List.getElem?_append_right (Nat.le_refl _)] at hv
              simp at hv
              subst hv
              have : μ.read (r, [vs.length]) = x := by
                simp only [Mem.read, hat, MVal.get, hx, Option.getD_some]
              rw [this] at hqr
              exact hqr
      · exact eff_refl hsim
    · rw [if_neg hv]
      rw [← hm] at hv
      simp only [ready, tidy, Obj.ph, hs, if_neg hv]
  | @inStruct _ ck _ _ ch _ H fs fd p l xs G k h1 hs hc hph hfd hK hk hw hFn hown hav hll hrd hxl hA hG hE hlent hsub =>
    obtain ⟨t', w, m, b, ph, s, f, ch'⟩ := a
    obtain ⟨ot, ow, om, g, ob, oph, os, of, ocm, kids⟩ := o
    replace ht : t' = t := ht
    subst ht
    replace hc : ch' = some ch := hc
    subst hc
    replace hph : ph = .midValue := hph
    subst hph
    replace hav : w = .struct l := hav
    subst hav
    have h2 : oph = .midValue := h1.ph hn
    subst h2
    have h3 : ot = t' := h1.ty
    subst h3
    replace hs : ot.shape = .struct fs := hs
    have hst : IsStruct ot := ⟨fs, hs⟩
    have h4 : os = s := h1.s hst
    subst h4
    have h5 : of = f := h1.f (Or.inr rfl) hst
    subst h5
    replace hfd : fs[of]? = some fd := hfd
    replace hk : kids[of]? = some k := hk
    replace hw : ow = some p := hw
    subst hw
    replace hE : ∀ i fd o x, i ≠ of → fs[i]? = some fd → l[i]? = some o → xs[i]? = some x →
        RepField (RepT μ) μ fd o x (G i) := hE
    replace hlent : Lent fd p of (xs[of]?) ocm ck k (G of) H := hlent
    have hm : ck = ch.m := (sim_head hsub).mark
    have hbit : os.testBit of = true := struct_bit hp hs rfl (by simp [Frame.child])
    obtain ⟨u, c, hpc, hty⟩ := partial_child hp rfl
    have hue : u = fd.ty := by
      rcases hty with hty | ⟨fs', fd', hty, hfd', hu⟩ <;> rw [hs] at hty <;> cases hty
      have hfd' : fs[of]? = some fd' := hfd'
      rw [hfd] at hfd'
      cases hfd'
      exact hu.symm
    subst hue
    have hct := partial_ty hpc
    have hlt : of < xs.length := by rw [hxl]; exact (List.getElem?_eq_some_iff.1 hfd).1
    obtain ⟨x0, hx0⟩ : ∃ x, xs[of]? = some x := ⟨_, List.getElem?_eq_getElem hlt⟩
    replace hll : l.length = fs.length := hll
    -- the assemblers afterwards
    have hkids : ∀ k', (∀ k, Idle false fd.ty k → Idle false fd.ty (k' k)) → ∀ kids', kids' = modifyKid k' of kids →
        ch.m = .value → Kids (freshAt ot .initial os of) none (parts ot) kids' := by
      intro k' hk' kids' he hv
      subst he
      refine ⟨by rw [modifyKid_length]; exact hK.1, fun i u j hu hj _ => ?_⟩
      rw [modifyKid_get] at hj
      by_cases hi : of = i
      · subst hi
        rw [if_pos rfl, hk] at hj
        cases hj
        obtain ⟨fd', hf', rfl⟩ := parts_field hs hu
        rw [hfd] at hf'
        cases hf'
        have hidle := sim_idle hsub (partial_done hpc hv)
        rw [hct] at hidle
        refine idle_weaken ?_ _ _ (hk' _ hidle)
        simp [freshAt, hs, hbit]
      · rw [if_neg hi] at hj
        have := hK.2 i u j hu hj (by simp [Frame.f]; exact fun h => hi h.symm)
        refine idle_weaken ?_ _ _ this
        simp only [freshAt, hs, Frame.ty, Frame.ph, Frame.s, Frame.f, Bool.or_eq_true]
        intro h
        rcases h with h | h
        · exact Or.inl h
        · simp at h
    have hkids0 : ch.m = .value → Kids (freshAt ot .initial os of) none (parts ot) kids := by
      intro hv
      refine hkids (fun k => k) (fun _ h => h) kids ?_ hv
      apply List.ext_getElem?
      intro i
      rw [modifyKid_get]
      by_cases hi : of = i <;> simp [hi]
    -- the value afterwards
    have hrep : ∀ (μ' : Mem) (x : MVal) (v : Val), (∀ r, F r → μ'.at' r = μ.at' r) →
        μ'.read p = .struct (xs.set of x) → RepField (RepT μ') μ' fd (some v) x (G of) →
        RepT μ' ot (.struct (l.set of (some v))) (μ'.read p) F := by
      intro μ' x v hF hr hR
      refine (repT_struct hs).2 ⟨l.set of (some v), xs.set of x, G, rfl, hr, by simp [hll], by simp [hxl], hA, hG, ?_⟩
      intro i fd' o y hf ho hy
      by_cases hi : of = i
      · subst hi
        rw [hfd] at hf
        cases hf
        rw [List.getElem?_set_self (by omega)] at ho hy
        cases ho
        cases hy
        exact hR
      · rw [List.getElem?_set_ne hi] at ho hy
        exact repField_frame (hE i fd' o y (fun h => hi h.symm) hf ho hy) (fun _ h => h)
          fun r hr => hF r (hG i r hr)
    have hself : xs.set of x0 = xs := by
      apply List.ext_getElem?
      intro i
      by_cases hi : of = i
      · subst hi; rw [List.getElem?_set_self hlt, hx0]
      · rw [List.getElem?_set_ne hi]
    have hpf : ∀ z : List Nat, μ.read (p.1, p.2 ++ of :: z) = x0.get z := by
      intro z
      rw [read_sub, hrd]
      simp only [MVal.get, hx0, Option.getD_some]
    simp only [Calls.ready]
    unfold Lent at hlent
    by_cases hq : fd.required
    · rw [if_pos hq] at hlent
      obtain ⟨hkw, hkm, hcm, hH⟩ := hlent
      subst hH
      by_cases hv : ch.m = .value
      · rw [if_pos hv]
        have hcv : ocm = .value := by rw [hcm, hm, hv]
        subst hcv
        obtain ⟨q, hq', hqo, hqr⟩ := sim_value hpc hsub hv
        rw [hkw] at hq'
        cases hq'
        rw [hct, hpf []] at hqr
        refine ⟨μ, .mk ot (some p) om g ob .initial os of .absent (if repr then kids else modifyKid Obj.park of kids), F,
          by simp only [ready, tidy, Obj.ph, hs, hfd, hq, if_true], ?_, eff_refl hsim, rfl, rfl, rfl, rfl⟩
        refine .rest ⟨rfl, h1.mark, h1.given, h1.begun, fun _ => rfl, fun _ => rfl, fun _ _ => rfl⟩ rfl
          (by simp [Frame.ph]) rfl ?_ hFn ⟨hown, ?_⟩
        · cases repr
          · exact hkids Obj.park (fun _ h => idle_park h) _ rfl hv
          · exact hkids0 hv
        · refine hrep μ x0 ch.w (fun _ _ => rfl) (by rw [hself]; exact hrd) ?_
          unfold RepField
          rw [if_pos hq]
          exact hqr
      · rw [if_neg hv]
        rw [← hm, ← hcm] at hv
        simp only [ready, tidy, Obj.ph, hs, hfd, hq, if_true, if_neg hv]
    · rw [if_neg hq] at hlent
      obtain ⟨hkm, hcm, hlent⟩ := hlent
      subst hcm
      by_cases hb : FieldT.byRef fd
      · rw [if_pos hb] at hlent
        obtain ⟨hx, hH, hkw⟩ := hlent
        rw [hx0] at hx
        cases hx
        have hmk : μ.mark (p.1, p.2 ++ [of]) = ck := by
          unfold Mem.mark
          rw [hpf []]; rfl
        by_cases hv : ch.m = .value
        · rw [if_pos hv]
          have hcv : ck = .value := by rw [hm, hv]
          obtain ⟨q, hq', hqo, hqr⟩ := sim_value hpc hsub hv
          obtain ⟨hq2, hq1⟩ := hkw q hq'
          obtain ⟨r, q2⟩ := q
          have hq2 : q2 = [] := hq2
          subst hq2
          rw [hct] at hqr
          have hwr : μ.write (p.1, p.2 ++ [of, 0]) (.ref (some (r, []))) =
              μ.write p (.struct (xs.set of (.maybe .value (.ref (some (r, [])))))) := by
            rw [write_sub, hrd, ← hcv]
            simp only [MVal.set, hx0, Option.getD_some]
          have hFr : ∀ q, F q → (μ.write (p.1, p.2 ++ [of, 0]) (.ref (some (r, [])))).at' q = μ.at' q := by
            intro q hq
            refine write_other _ _ fun h => ?_
            subst h
            exact hown.out hq
          refine ⟨μ.write (p.1, p.2 ++ [of, 0]) (.ref (some (r, []))), .mk ot (some p) om g ob .initial os of .absent kids, F, ?_, ?_, ?_, rfl, rfl, rfl, rfl⟩
          · simp only [ready, tidy, Obj.ph, hs, hfd, hq, hmk, hb, hcv, if_true, if_false, hk, hq', Option.bind_some, Bool.false_eq_true]
          · refine .rest ⟨rfl, h1.mark, h1.given, h1.begun, fun _ => rfl, fun _ => rfl, fun _ _ => rfl⟩ rfl
              (by simp [Frame.ph]) rfl (hkids0 hv) hFn ⟨⟨?_, hown.root, hown.out⟩, ?_⟩
            · rw [hwr, write_same]
              exact valid_set hown.valid _
            · refine hrep _ (.maybe .value (.ref (some (r, [])))) ch.w hFr ?_ ?_
              · rw [hwr, read_write hown.valid]
              · unfold RepField
                rw [if_neg hq, if_pos hb]
                refine ⟨r, H, rfl, hq1, hqo.out, hH, ?_⟩
                rw [hFr r (hG _ _ hq1)]
                exact repT_frame hqr (fun _ h => h) fun z hz => hFr z (hG _ _ (hH z hz))
          · rw [hwr]
            exact eff_write hown _ F fun _ h => Or.inl h
        · rw [if_neg hv]
          rw [← hm] at hv
          simp only [ready, tidy, Obj.ph, hs, hfd, hq, hmk, if_neg hv, Bool.false_eq_true, if_false]
      · rw [if_neg hb] at hlent
        obtain ⟨hkw, hH, y, hx⟩ := hlent
        subst hH
        rw [hx0] at hx
        cases hx
        have hmk : μ.mark (p.1, p.2 ++ [of]) = ck := by
          unfold Mem.mark
          rw [hpf []]; rfl
        by_cases hv : ch.m = .value
        · rw [if_pos hv]
          have hcv : ck = .value := by rw [hm, hv]
          subst hcv
          obtain ⟨q, hq', hqo, hqr⟩ := sim_value hpc hsub hv
          rw [hkw] at hq'
          cases hq'
          rw [hct, hpf [0]] at hqr
          refine ⟨μ, .mk ot (some p) om g ob .initial os of .absent kids, F, ?_, ?_, eff_refl hsim, rfl, rfl, rfl, rfl⟩
          · simp only [ready, tidy, Obj.ph, hs, hfd, hq, hmk, hb, if_true, if_false, Bool.false_eq_true]
          · refine .rest ⟨rfl, h1.mark, h1.given, h1.begun, fun _ => rfl, fun _ => rfl, fun _ _ => rfl⟩ rfl
              (by simp [Frame.ph]) rfl (hkids0 hv) hFn ⟨hown, ?_⟩
            refine hrep μ _ ch.w (fun _ _ => rfl) (by rw [hself]; exact hrd) ?_
            unfold RepField
            rw [if_neg hq, if_neg hb]
            exact ⟨y, rfl, hqr⟩
        · rw [if_neg hv]
          rw [← hm] at hv
          simp only [ready, tidy, Obj.ph, hs, hfd, hq, hmk, if_neg hv, Bool.false_eq_true, if_false]

end Verif.Handles
