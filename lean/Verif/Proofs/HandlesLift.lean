import Verif.Proofs.HandlesCall

/-! Calls further down, in memory. -/

namespace Verif.Handles

open Calls Spec

/-- Nothing is lost when the memory changes elsewhere. -/
theorem sim_frame {μ μ' : Mem} {mk : Maybe} {o : Obj} {a : Frame} {F : Foot} (h : Sim μ mk o a F)
    (hn : μ.next ≤ μ'.next) (hF : ∀ q, F q → μ'.at' q = μ.at' q)
    (hw : ∀ p, o.w = some p → μ'.read p = μ.read p ∧ Valid p.2 (μ'.at' p.1)) : Sim μ' mk o a F := by
  induction h with
  | rest h1 h2 h3 h4 h5 h6 h7 =>
    rename_i mk o a F
    refine .rest h1 h2 h3 h4 h5 (fun r hr => Nat.lt_of_lt_of_le (h6 r hr) hn) ?_
    cases ho : o.w with
    | none => rw [ho] at h7; exact h7
    | some p =>
      rw [ho] at h7
      obtain ⟨hr, hv⟩ := hw p ho
      refine ⟨⟨hv, Nat.lt_of_lt_of_le h7.1.root hn, h7.1.out⟩, ?_⟩
      rw [hr]
      exact repT_frame h7.2 (fun _ h => h) hF
  | inList h1 hs hc hph hk ho hFn hown hav hrd hcap hFr hat hlen hA hG hE hkw hkm hsub ih =>
    obtain ⟨hr, hv⟩ := hw _ ho
    have hat' := hF _ hFr
    refine .inList h1 hs hc hph hk ho (fun r hr => Nat.lt_of_lt_of_le (hFn r hr) hn)
      ⟨hv, Nat.lt_of_lt_of_le hown.root hn, hown.out⟩ hav (by rw [hr]; exact hrd) hcap hFr (by rw [hat']; exact hat) hlen hA hG
      (fun i v x hv hx => repT_frame (hE i v x hv hx) (fun _ h => h) fun q hq => hF q (hG i q hq).1) hkw hkm ?_
    refine ih (fun q hq => hF q (hG _ q hq).1) fun p hp => ?_
    rw [hkw] at hp
    cases hp
    refine ⟨by simp only [Mem.read, hat'], ?_⟩
    simp only
    rw [hat', hat]
    exact ⟨_, List.getElem?_eq_getElem (by omega), trivial⟩
  | @inStruct mk ck o a ch F H fs fd p l xs G k h1 hs hc hph hfd hK hk ho hFn hown hav hll hrd hxl hA hG hE hlent hsub ih =>
    obtain ⟨hr, hv⟩ := hw _ ho
    refine .inStruct h1 hs hc hph hfd hK hk ho (fun r hr => Nat.lt_of_lt_of_le (hFn r hr) hn)
      ⟨hv, Nat.lt_of_lt_of_le hown.root hn, hown.out⟩ hav hll (by rw [hr]; exact hrd) hxl hA hG
      (fun i fd o x hi hf ho hx => repField_frame (hE i fd o x hi hf ho hx) (fun _ h => h) fun q hq => hF q (hG i q hq))
      hlent ?_
    have hlt : a.f < xs.length := by rw [hxl]; exact (List.getElem?_eq_some_iff.1 hfd).1
    have hvs : ∀ z x, xs[a.f]? = some x → Valid z x → Valid (p.2 ++ a.f :: z) (μ'.at' p.1) := by
      intro z x hx hz
      refine valid_append hv ?_
      rw [show (μ'.at' p.1).get p.2 = .struct xs from hr.trans hrd]
      exact ⟨x, hx, hz⟩
    have hrs : ∀ z, μ'.read (p.1, p.2 ++ z) = μ.read (p.1, p.2 ++ z) := by
      intro z; rw [read_sub, read_sub, hr]
    unfold Lent at hlent
    split at hlent
    · obtain ⟨hkw, hkm, hcm, rfl⟩ := hlent
      refine ih (fun q hq => hF q (hG _ q hq)) fun q hq => ?_
      rw [hkw] at hq
      cases hq
      exact ⟨hrs _, hvs [] _ (List.getElem?_eq_getElem hlt) trivial⟩
    · obtain ⟨hkm, hcm, hlent⟩ := hlent
      split at hlent
      · obtain ⟨hx, hH, hkw⟩ := hlent
        refine ih (fun q hq => hF q (hG _ q (hH q hq))) fun q hq => ?_
        obtain ⟨e, hg⟩ := hkw q hq
        have := hF _ (hG _ _ hg)
        refine ⟨by simp only [Mem.read, this], ?_⟩
        rw [e]; trivial
      · obtain ⟨hkw, rfl, y, hx⟩ := hlent
        refine ih (fun q hq => hF q (hG _ q hq)) fun q hq => ?_
        rw [hkw] at hq
        cases hq
        exact ⟨hrs _, hvs [0] _ hx trivial⟩

/-- The place of the child. -/
def place (a : Frame) : Nat := match a.ty.shape with | .struct _ => a.f | _ => 0

/-- A call on the child, seen from the assembler. -/
theorem sim_child {μ : Mem} {mk : Maybe} {o : Obj} {a ch : Frame} {F : Foot} (h : Sim μ mk o a F)
    (hc : a.child = some ch) :
    ∃ ck k H, kid ⟨μ, mk, o⟩ (place a) = some ⟨μ, ck, k⟩ ∧ Sim μ ck k ch H ∧
      ∀ μ' mk' k' ch' H', Sim μ' mk' k' ch' H' → Eff μ μ' k.w k'.w H H' → k'.m = k.m →
        ∃ μ2 o2 F2, putBack ⟨μ, mk, o⟩ (place a) ⟨μ', mk', k'⟩ = ⟨μ2, mk, o2⟩ ∧
          Sim μ2 mk o2 (a.setChild ch') F2 ∧ Eff μ μ2 o.w o2.w F F2 ∧ o2.m = o.m := by
  cases h with
  | rest _ h => rw [hc] at h; cases h
  | @inList _ _ _ ch0 _ e p r cap vs xs G k h1 hs hc0 hph hk ho hFn hown hav hrd hcap hFr hat hlen hA hG hE hkw hkm hsub =>
    rw [hc] at hc0
    cases hc0
    have hpl : place a = 0 := by simp [place, hs]
    refine ⟨o.cm, k, G vs.length, ?_, hsub, ?_⟩
    · simp only [kid, hpl, hk, List.getElem?_cons_zero, hkm]
    · intro μ' mk' k' ch' H' hsim heff hm
      rw [hkm] at hm
      obtain ⟨hkw', hat'⟩ := heff.place _ hkw
      have hown' := sim_own hsim hkw'
      have hrp : p.1 ≠ r := fun h => hown.out (h ▸ hFr)
      have hrn : r < μ.next := hFn r hFr
      have hold : ∀ q, q < μ.next → ¬ G vs.length q → q ≠ r → μ'.at' q = μ.at' q := by
        intro q h1 h2 h3
        refine heff.old q h1 h2 fun p hp => ?_
        rw [hkw] at hp
        cases hp
        exact h3
      have hp' : μ'.at' p.1 = μ.at' p.1 := hold _ hown.root (fun h => hown.out (hG _ _ h).1) hrp
      have hrd' : μ'.read p = μ.read p := by simp only [Mem.read, hp']
      have hH' : ∀ q, H' q → F q ∨ μ.next ≤ q := fun q hq => (heff.foot q hq).imp (fun h => (hG _ _ h).1) id
      have hlt : vs.length < xs.length := hlen
      rw [hat] at hat'
      simp only [MVal.set] at hat'
      obtain ⟨y, hy⟩ : ∃ y, μ'.at' r = .arr (xs.set vs.length y) := ⟨_, hat'⟩
      obtain ⟨ot, ow, om, g, ob, oph, os, of, ocm, kids⟩ := o
      obtain ⟨t', w, m, b, ph, s, f, c'⟩ := a
      replace hk : kids = [k] := hk
      subst hk
      replace hav : w = .list vs := hav
      subst hav
      refine ⟨μ', .mk ot ow om g ob oph os of mk' [k'], fun q => F q ∨ H' q, ?_, ?_, ?_, rfl⟩
      · simp only [putBack, hm, hpl, List.set_cons_zero]
      · refine .inList (p := p) (r := r) (cap := cap) (vs := vs) (xs := xs.set vs.length y)
          (G := fun i => if i = vs.length then H' else G i) ⟨h1.ty, h1.mark, h1.given, h1.begun, h1.ph, h1.s, h1.f⟩
          hs rfl hph rfl ho ?_ ⟨by rw [hp']; exact hown.valid, Nat.lt_of_lt_of_le hown.root heff.next, ?_⟩ rfl
          (by rw [hrd']; exact hrd) hcap (Or.inl hFr) hy (by simp; omega) ?_ ?_ ?_ hkw' hm ?_
        · rintro q (hq | hq)
          · exact Nat.lt_of_lt_of_le (hFn q hq) heff.next
          · exact sim_foot hsim q hq
        · rintro (hq | hq)
          · exact hown.out hq
          · rcases hH' _ hq with h | h
            · exact hown.out h
            · have := hown.root; omega
        · intro i j q hi hj
          have hx : ∀ i, i ≠ vs.length → G i q → H' q → False := by
            intro i hi hgi hh
            rcases heff.foot q hh with h | h
            · exact hi (hA _ _ _ hgi h)
            · have := hFn q (hG _ _ hgi).1; omega
          by_cases h1 : i = vs.length
          · by_cases h2 : j = vs.length
            · omega
            · rw [if_pos h1] at hi
              rw [if_neg h2] at hj
              exact (hx j h2 hj hi).elim
          · rw [if_neg h1] at hi
            by_cases h2 : j = vs.length
            · rw [if_pos h2] at hj
              exact (hx i h1 hi hj).elim
            · rw [if_neg h2] at hj
              exact hA _ _ _ hi hj
        · intro i q hi
          by_cases h1 : i = vs.length
          · rw [if_pos h1] at hi
            exact ⟨Or.inr hi, fun h => hown'.out (h ▸ hi)⟩
          · rw [if_neg h1] at hi
            exact ⟨Or.inl (hG _ _ hi).1, (hG _ _ hi).2⟩
        · intro i v x hv hx
          have hi : i < vs.length := (List.getElem?_eq_some_iff.1 hv).1
          rw [List.getElem?_set_ne (by omega)] at hx
          simp only [if_neg (show i ≠ vs.length by omega)]
          refine repT_frame (hE i v x hv hx) (fun _ h => h) fun q hq => ?_
          refine hold q (hFn q (hG _ _ hq).1) (fun h => ?_) (hG _ _ hq).2
          have := hA _ _ _ hq h
          omega
        · simp only [if_true]
          exact hsim
      · refine ⟨heff.next, fun q h1 h2 h3 => ?_, fun q hq => ⟨hq, ?_⟩, fun h => Or.inl h, ?_⟩
        · exact hold q h1 (fun h => h2 (hG _ _ h).1) (fun h => h2 (h ▸ hFr))
        · replace ho : ow = some p := ho
          replace hq : ow = some q := hq
          rw [ho] at hq
          cases hq
          rw [hrd', hp', Mem.read, set_get hown.valid]
        · rintro q (hq | hq)
          · exact Or.inl hq
          · exact hH' q hq
  | @inStruct _ ck _ _ ch0 _ H fs fd p l xs G k h1 hs hc0 hph hfd hK hk ho hFn hown hav hll hrd hxl hA hG hE hlent hsub =>
    rw [hc] at hc0
    cases hc0
    have hpl : place a = a.f := by simp [place, hs]
    rw [hpl]
    have hlt : a.f < xs.length := by rw [hxl]; exact (List.getElem?_eq_some_iff.1 hfd).1
    obtain ⟨x0, hx0⟩ : ∃ x, xs[a.f]? = some x := ⟨_, List.getElem?_eq_getElem hlt⟩
    rw [hx0] at hlent
    have hpf : ∀ z : List Nat, μ.read (p.1, p.2 ++ a.f :: z) = x0.get z := by
      intro z
      rw [read_sub, hrd]
      simp only [MVal.get, hx0, Option.getD_some]
    -- putting things together again
    have key : ∀ (μ2 : Mem) (cm' mk' : Maybe) (k' : Obj) (ch' : Frame) (Gf H' : Foot) (x' : MVal), μ.next ≤ μ2.next →
        (∀ q, q < μ.next → ¬ G a.f q → q ≠ p.1 → μ2.at' q = μ.at' q) →
        μ2.at' p.1 = (μ.at' p.1).set p.2 (.struct (xs.set a.f x')) →
        (∀ q, Gf q → (G a.f q ∨ μ.next ≤ q) ∧ q < μ2.next) →
        Lent fd p a.f (some x') cm' mk' k' Gf H' → Sim μ2 mk' k' ch' H' →
        ∃ F2, Sim μ2 mk (.mk o.ty o.w o.m o.given o.begun o.ph o.s o.f cm' (o.kids.set a.f k')) (a.setChild ch') F2 ∧
          Eff μ μ2 o.w o.w F F2 := by
      intro μ2 cm' mk' k' ch' Gf H' x' hn hold hp' hGf hlent' hsim
      have hrd2 : μ2.read p = .struct (xs.set a.f x') := by
        rw [Mem.read, hp', get_set hown.valid]
      have hout : ¬ Gf p.1 := by
        intro hq
        rcases (hGf _ hq).1 with h | h
        · exact hown.out (hG _ _ h)
        · have := hown.root; omega
      refine ⟨fun q => F q ∨ Gf q, ?_, ?_⟩
      · obtain ⟨t', w, m, b, ph, s, f, c'⟩ := a
        refine .inStruct (p := p) (ck := mk') (H := H') (xs := xs.set f x') (G := fun i => if i = f then Gf else G i) (k := k')
          ⟨h1.ty, h1.mark, h1.given, h1.begun, h1.ph, h1.s, h1.f⟩ hs rfl hph hfd ⟨?_, ?_⟩ ?_ ho ?_
          ⟨?_, Nat.lt_of_lt_of_le hown.root hn, ?_⟩ hav hll hrd2 (by simp [hxl]) ?_ ?_ ?_ ?_ hsim
        · rw [Obj.kids, List.length_set]; exact hK.1
        · intro i u k2 hu hk2 hi
          have hif : f ≠ i := fun h => hi (by rw [← h]; rfl)
          replace hk2 : (o.kids.set f k')[i]? = some k2 := hk2
          rw [List.getElem?_set_ne hif] at hk2
          exact hK.2 i u k2 hu hk2 hi
        · exact List.getElem?_set_self (List.getElem?_eq_some_iff.1 hk).1
        · rintro q (hq | hq)
          · exact Nat.lt_of_lt_of_le (hFn q hq) hn
          · exact (hGf q hq).2
        · rw [hp']; exact valid_set hown.valid _
        · rintro (hq | hq)
          · exact hown.out hq
          · exact hout hq
        · intro i j q hi hj
          have hx : ∀ i, i ≠ f → G i q → Gf q → False := by
            intro i hi hgi hh
            rcases (hGf q hh).1 with h | h
            · exact hi (hA _ _ _ hgi h)
            · have := hFn q (hG _ _ hgi); omega
          by_cases h1 : i = f
          · by_cases h2 : j = f
            · omega
            · rw [if_pos h1] at hi
              rw [if_neg h2] at hj
              exact (hx j h2 hj hi).elim
          · rw [if_neg h1] at hi
            by_cases h2 : j = f
            · rw [if_pos h2] at hj
              exact (hx i h1 hi hj).elim
            · rw [if_neg h2] at hj
              exact hA _ _ _ hi hj
        · intro i q hi
          by_cases h1 : i = f
          · rw [if_pos h1] at hi; exact Or.inr hi
          · rw [if_neg h1] at hi; exact Or.inl (hG _ _ hi)
        · intro i fd' o' x hi hf ho' hx
          replace hi : i ≠ f := hi
          rw [List.getElem?_set_ne (fun h => hi h.symm)] at hx
          simp only [if_neg hi]
          refine repField_frame (hE i fd' o' x hi hf ho' hx) (fun _ h => h) fun q hq => ?_
          refine hold q (hFn q (hG _ _ hq)) (fun h => hi (hA _ _ _ hq h)) (fun h => hown.out (h ▸ hG _ _ hq))
        · show Lent fd p f ((xs.set f x')[f]?) cm' mk' k' (if f = f then Gf else G f) H'
          rw [List.getElem?_set_self (show f < xs.length from hlt), if_pos rfl]
          exact hlent'
      · refine ⟨hn, fun q h1 h2 h3 => hold q h1 (fun h => h2 (hG _ _ h)) (h3 p ho), fun q hq => ⟨hq, ?_⟩,
          fun h => Or.inl h, ?_⟩
        · rw [ho] at hq
          cases hq
          rw [hrd2]; exact hp'
        · rintro q (hq | hq)
          · exact Or.inl hq
          · exact (hGf q hq).1.imp (fun h => hG _ _ h) id
    have hlent0 := hlent
    unfold Lent at hlent
    by_cases hq : fd.required
    · rw [if_pos hq] at hlent
      obtain ⟨hkw, hkm, hcm, rfl⟩ := hlent
      refine ⟨ck, k, G a.f, ?_, hsub, ?_⟩
      · simp only [kid, hk, hkm, hcm]
      · intro μ' mk' k' ch' H' hsim heff hm
        rw [hkm] at hm
        obtain ⟨hkw', hat'⟩ := heff.place _ hkw
        refine Exists.elim (key μ' mk' mk' k' ch' H' H' (μ'.read (p.1, p.2 ++ [a.f])) heff.next ?_ ?_ ?_ ?_ hsim) fun F2 hF2 => ?_
        · intro q h1 h2 h3
          refine heff.old q h1 h2 fun p' hp => ?_
          rw [hkw] at hp
          cases hp
          exact h3
        · rw [hat', set_append, show (μ.at' p.1).get p.2 = .struct xs from hrd]
          rfl
        · exact fun q hq => ⟨heff.foot q hq, sim_foot hsim q hq⟩
        · unfold Lent
          rw [if_pos hq]
          exact ⟨hkw', hm, rfl, rfl⟩
        · obtain ⟨e1, e2⟩ := hF2
          refine ⟨μ', _, F2, ?_, e1, e2, rfl⟩
          obtain ⟨ot, ow, om, g, ob, oph, os, of, ocm, kids⟩ := o
          simp only [putBack, hm]
          rfl
    · rw [if_neg hq] at hlent
      obtain ⟨hkm, hcm, hlent⟩ := hlent
      by_cases hb : FieldT.byRef fd
      · rw [if_pos hb] at hlent
        obtain ⟨hx, hH, hkw⟩ := hlent
        cases hx
        refine ⟨ck, k, H, ?_, hsub, ?_⟩
        · simp only [kid, hk, hkm, Mem.mark, hpf [], MVal.get]
        · intro μ' mk' k' ch' H' hsim heff hm
          rw [hkm] at hm
          have hp' : μ'.at' p.1 = μ.at' p.1 := by
            refine heff.old _ hown.root (fun h => hown.out (hG _ _ (hH _ h))) fun q hq h => ?_
            obtain ⟨_, hg⟩ := hkw q hq
            exact hown.out (h ▸ hG _ _ hg)
          have hrd' : ∀ z, μ'.read (p.1, z) = μ.read (p.1, z) := by
            intro z; simp only [Mem.read, hp']
          have hset : μ'.setMark (p.1, p.2 ++ [a.f]) mk' =
              μ'.write p (.struct (xs.set a.f (.maybe mk' (.ref none)))) := by
            unfold Mem.setMark
            rw [hrd', hpf []]
            simp only [MVal.get]
            rw [write_sub, show μ'.read p = μ.read p from hrd' p.2, hrd]
            simp only [MVal.set]
          have hk'w : ∀ q, k'.w = some q → q.2 = [] ∧ q.1 ≠ p.1 ∧ (G a.f q.1 ∨ μ.next ≤ q.1) := by
            intro q hq
            cases hkw0 : k.w with
            | some q0 =>
              rw [(heff.place _ hkw0).1] at hq
              cases hq
              obtain ⟨h1, h2⟩ := hkw _ hkw0
              exact ⟨h1, fun h => hown.out (h ▸ hG _ _ h2), Or.inl h2⟩
            | none =>
              rcases heff.made hkw0 with h | ⟨r, h, hr⟩
              · rw [h] at hq; cases hq
              · rw [h] at hq
                cases hq
                have := hown.root
                exact ⟨rfl, by simp only; omega, Or.inr hr⟩
          have hH' : ∀ q, H' q → (G a.f q ∨ μ.next ≤ q) := fun q hq => (heff.foot q hq).imp (hH q) id
          have hsim2 : Sim (μ'.setMark (p.1, p.2 ++ [a.f]) mk') mk' k' ch' H' := by
            rw [hset]
            refine sim_frame hsim (Nat.le_refl _) (fun q hq => write_other _ _ fun h => ?_) fun q hq => ?_
            · rcases hH' q hq with h1 | h1
              · exact hown.out (h ▸ hG _ _ h1)
              · have := hown.root; omega
            · obtain ⟨h1, h2, h3⟩ := hk'w q hq
              refine ⟨by simp only [Mem.read, write_other _ _ h2], by rw [h1]; trivial⟩
          refine Exists.elim (key (μ'.setMark (p.1, p.2 ++ [a.f]) mk') .absent mk' k' ch'
            (fun q => (G a.f q ∨ H' q) ∨ k'.w = some (q, [])) H' (.maybe mk' (.ref none)) ?_ ?_ ?_ ?_ ?_ hsim2) fun F2 hF2 => ?_
          · rw [hset]; exact heff.next
          · intro q h1 h2 h3
            rw [hset, write_other _ _ h3]
            refine heff.old q h1 (fun h => h2 (hH q h)) fun p' hp h => ?_
            obtain ⟨_, hg⟩ := hkw _ hp
            exact h2 (h ▸ hg)
          · rw [hset, write_same, hp']
          · intro q hq
            rw [hset]
            show _ ∧ q < μ'.next
            rcases hq with (hq | hq) | hq
            · exact ⟨Or.inl hq, Nat.lt_of_lt_of_le (hFn q (hG _ _ hq)) heff.next⟩
            · exact ⟨hH' q hq, sim_foot hsim q hq⟩
            · exact ⟨(hk'w _ hq).2.2, (sim_own hsim hq).root⟩
          · unfold Lent
            rw [if_neg hq, if_pos hb]
            refine ⟨hm, rfl, rfl, fun r hr => Or.inl (Or.inr hr), fun q hq => ?_⟩
            obtain ⟨h1, _, _⟩ := hk'w q hq
            refine ⟨h1, Or.inr ?_⟩
            rw [hq, ← h1]
          · obtain ⟨e1, e2⟩ := hF2
            refine ⟨_, _, F2, ?_, e1, e2, rfl⟩
            obtain ⟨ot, ow, om, g, ob, oph, os, of, ocm, kids⟩ := o
            replace hcm : ocm = .absent := hcm
            subst hcm
            simp only [putBack, hm]
            rfl
      · rw [if_neg hb] at hlent
        obtain ⟨hkw, rfl, y0, hx⟩ := hlent
        cases hx
        refine ⟨ck, k, G a.f, ?_, hsub, ?_⟩
        · simp only [kid, hk, hkm, Mem.mark, hpf [], MVal.get]
        · intro μ' mk' k' ch' H' hsim heff hm
          rw [hkm] at hm
          obtain ⟨hkw', hat'⟩ := heff.place _ hkw
          obtain ⟨y, hy⟩ : ∃ y, y = μ'.read (p.1, p.2 ++ [a.f, 0]) := ⟨_, rfl⟩
          rw [← hy] at hat'
          have hp' : μ'.at' p.1 = (μ.at' p.1).set p.2 (.struct (xs.set a.f (.maybe ck y))) := by
            rw [hat', set_append, show (μ.at' p.1).get p.2 = .struct xs from hrd]
            simp only [MVal.set, hx0, Option.getD_some]
          have hval' : Valid p.2 (μ'.at' p.1) := by rw [hp']; exact valid_set hown.valid _
          have hrd' : μ'.read p = .struct (xs.set a.f (.maybe ck y)) := by
            rw [Mem.read, hp', get_set hown.valid]
          have hset : μ'.setMark (p.1, p.2 ++ [a.f]) mk' =
              μ'.write p (.struct (xs.set a.f (.maybe mk' y))) := by
            unfold Mem.setMark
            rw [read_sub, hrd']
            simp only [MVal.get, List.getElem?_set_self hlt, Option.getD_some]
            rw [write_sub, hrd']
            simp only [MVal.set, List.set_set]
          have hsim2 : Sim (μ'.setMark (p.1, p.2 ++ [a.f]) mk') mk' k' ch' H' := by
            rw [hset]
            refine sim_frame hsim (Nat.le_refl _) (fun q hq => write_other _ _ fun h => ?_) fun q hq => ?_
            · rcases heff.foot q hq with h1 | h1
              · exact hown.out (h ▸ hG _ _ h1)
              · have := hown.root; omega
            · rw [hkw'] at hq
              cases hq
              constructor
              · rw [← hy, read_sub, read_write hval']
                simp only [MVal.get, List.getElem?_set_self hlt, Option.getD_some]
              · simp only
                rw [write_same]
                refine valid_append (valid_set hval' _) ?_
                rw [get_set hval']
                exact ⟨_, List.getElem?_set_self hlt, trivial⟩
          refine Exists.elim (key (μ'.setMark (p.1, p.2 ++ [a.f]) mk') .absent mk' k' ch'
            H' H' (.maybe mk' y) ?_ ?_ ?_ ?_ ?_ hsim2) fun F2 hF2 => ?_
          · rw [hset]; exact heff.next
          · intro q h1 h2 h3
            rw [hset, write_other _ _ h3]
            refine heff.old q h1 h2 fun p' hp => ?_
            rw [hkw] at hp
            cases hp
            exact h3
          · rw [hset, write_same, hp', set_set hown.valid]
          · intro q hq
            rw [hset]
            exact ⟨heff.foot q hq, sim_foot hsim q hq⟩
          · unfold Lent
            rw [if_neg hq, if_neg hb]
            exact ⟨hm, rfl, hkw', rfl, y, rfl⟩
          · obtain ⟨e1, e2⟩ := hF2
            refine ⟨_, _, F2, ?_, e1, e2, rfl⟩
            obtain ⟨ot, ow, om, g, ob, oph, os, of, ocm, kids⟩ := o
            replace hcm : ocm = .absent := hcm
            subst hcm
            simp only [putBack, hm]
            rfl

/-- A call `d` levels down. -/
theorem sim_callAt {μ : Mem} {mk : Maybe} {o : Obj} {a : Frame} {F : Foot} {t : T} {cs : List (Nat × Call)}
    (repr : Bool) (grow : Nat → Nat) (hp : Partial t a cs) (h : Sim μ mk o a F) (d : Nat) (c : Call)
    (hc : ∀ u v, c = .assignSelf u v → Complete u v) :
    Steps μ o F (callAt repr grow (current d a) c ⟨μ, mk, o⟩) (a.callAt d c) := by
  induction d generalizing μ mk o a F t cs with
  | zero => exact sim_call repr grow hp h c hc
  | succ d ih =>
    unfold Frame.callAt
    cases hch : a.child with
    | none => exact trivial
    | some ch =>
      obtain ⟨u, c', hpc, _⟩ := partial_child hp hch
      obtain ⟨ck, k, H, hkid, hsub, hback⟩ := sim_child h hch
      have hi := ih hpc hsub
      have hcur : current (d + 1) a = place a :: current d ch := by
        simp only [current, hch]
        rfl
      rw [hcur]
      simp only [callAt, hkid]
      cases ho : ch.callAt d c with
      | ok ch' =>
        rw [ho] at hi
        obtain ⟨μ', mk', k', H', e1, e2, e3, e4⟩ := hi
        obtain ⟨μ2, o2, F2, g1, g2, g3, g4⟩ := hback μ' mk' k' ch' H' e2 e3 e4
        rw [e1]
        simp only [g1]
        exact ⟨μ2, mk, o2, F2, rfl, g2, g3, g4⟩
      | err e ch' =>
        rw [ho] at hi
        obtain ⟨μ', mk', k', H', e1, e2, e3, e4⟩ := hi
        obtain ⟨μ2, o2, F2, g1, g2, g3, g4⟩ := hback μ' mk' k' ch' H' e2 e3 e4
        rw [e1]
        simp only [g1]
        exact ⟨μ2, mk, o2, F2, rfl, g2, g3, g4⟩
      | panic =>
        rw [ho] at hi
        replace hi : callAt repr grow (current d ch) c ⟨μ, ck, k⟩ = .panic := hi
        simp only [hi]
        exact rfl
      | noHandle => exact trivial

end Verif.Handles
