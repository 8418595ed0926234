import Verif.Spec.Again
import Verif.Proofs.ShownAll

/-!
# Several objects through one builder: lemmas
-/

namespace Verif.Handles

open Calls Spec

/-- A builder of commits or tags between calls of `Decode`. The assembler is back at the
start, or stuck; the first field, which is required, has not been finished. -/
structure Held (t : T) (a : St) : Prop where
  ty : a.obj.ty = t
  w : a.obj.w = some (0, [])
  cm : a.obj.cm = .absent
  next : 1 ≤ a.mem.next
  kids : ∀ k ∈ a.obj.kids, k.ty ≠ .treeEntry ∧ k.ty ≠ .tag ∧ k.ty ≠ .commit
  len : ∀ fs, t.shape = .struct fs → a.obj.kids.length = fs.length
  first : a.obj.s % 2 = 0 ∨ a.obj.ph = .midKey ∨ a.obj.ph = .midValue ∧ a.obj.f = 0

theorem held_builder {t : T} (ht : t = .commit ∨ t = .tag) : Held t (builder t) := by
  rcases ht with rfl | rfl
  · exact ⟨rfl, rfl, rfl, by decide, by decide, fun fs h => by cases h; rfl, .inl rfl⟩
  · exact ⟨rfl, rfl, rfl, by decide, by decide, fun fs h => by cases h; rfl, .inl rfl⟩

theorem modKid_ty {f : Obj → Obj} (hf : ∀ o, (f o).ty = o.ty) {i : Nat} {kids : List Obj}
    {P : T → Prop} (h : ∀ k ∈ kids, P k.ty) : ∀ k ∈ modifyKid f i kids, P k.ty := by
  intro k hk
  unfold modifyKid at hk
  split at hk
  · rename_i x hx
    rcases List.mem_or_eq_of_mem_set hk with h1 | rfl
    · exact h k h1
    · rw [hf]
      exact h x (List.mem_of_getElem? hx)
  · exact h k hk

theorem modKid_length (f : Obj → Obj) (i : Nat) (kids : List Obj) : (modifyKid f i kids).length = kids.length := by
  unfold modifyKid
  split
  · exact List.length_set
  · rfl

theorem lend_ty_eq (w : Option Ptr) (m : MarkAt) (o : Obj) : (o.lend w m).ty = o.ty := by
  cases o; rfl

theorem write_next (μ : Mem) (p : Ptr) (x : MVal) : (μ.write p x).next = μ.next := rfl

theorem setMark_next (μ : Mem) (p : Ptr) (m : Maybe) : (μ.setMark p m).next = μ.next := by
  unfold Mem.setMark
  split <;> rfl

variable {t : T} {fs : List FieldT}

/-- The start of `AssembleKey` and `Finish`. -/
theorem ready_held (repr : Bool) (hs : t.shape = .struct fs) (h0 : ∃ fd, fs[0]? = some fd ∧ fd.required = true)
    {a a' : St} (h : Held t a) (hr : ready repr a = some a') :
    Held t a' ∧ a'.mark = a.mark ∧ a'.obj.s % 2 = 0 := by
  obtain ⟨ty, hw, hcm, hn, hk, hlen, hf⟩ := h
  obtain ⟨μ, m, ⟨t', w, ma, g, b, ph, s, f, cm, kids⟩⟩ := a
  simp only [Obj.ty, Obj.w, Obj.cm, Obj.kids, Obj.s, Obj.ph,
    Obj.f] at ty hw hcm hn hk hf
  subst ty hw hcm
  unfold ready at hr
  cases ph with
  | initial =>
    cases hr
    rcases hf with hf | hf | hf
    · exact ⟨⟨rfl, rfl, rfl, hn, hk, hlen, .inl hf⟩, rfl, hf⟩
    · cases hf
    · cases hf.1
  | midValue =>
    simp only [Obj.ph, tidy, hs] at hr
    split at hr
    · cases hr
    · rename_i fd hfd
      split at hr
      · rename_i hreq
        rw [if_neg (by simp)] at hr
        cases hr
      · rename_i hreq
        have hs2 : s % 2 = 0 := by
          rcases hf with hf | hf | hf
          · exact hf
          · cases hf
          · obtain ⟨_, rfl⟩ := hf
            obtain ⟨fd', h1, h2⟩ := h0
            rw [h1] at hfd
            cases hfd
            exact absurd h2 hreq
        split at hr
        · cases hr
          refine ⟨⟨rfl, rfl, rfl, ?_, hk, hlen, .inl hs2⟩, rfl, hs2⟩
          dsimp only
          split
          · exact hn
          · exact hn
        · cases hr
  | midKey => cases hr
  | expectValue => cases hr
  | finished => cases hr

/-- Given to the assembler of a field, the node comes to nothing. -/
def Hopeless (repr : Bool) (grow : Nat → Nat) (n : Nd) : Prop :=
  ∀ k : St, (k.obj.ty ≠ .treeEntry ∧ k.obj.ty ≠ .tag ∧ k.obj.ty ≠ .commit) →
    assignNd repr grow n k = .panic ∨
    ∃ e k', assignNd repr grow n k = .err e k' ∧ k'.mark = k.mark ∧ k'.obj.ty = k.obj.ty ∧ k'.obj.m = k.obj.m ∧
      k'.mem.next = k.mem.next

theorem ready_keeps {repr : Bool} {a a' : St} (hr : ready repr a = some a') :
    a'.mark = a.mark ∧ a'.obj.ty = a.obj.ty ∧ a'.obj.m = a.obj.m ∧ a'.mem.next = a.mem.next := by
  obtain ⟨μ, m, ⟨t', w, ma, g, b, ph, s, f, cm, kids⟩⟩ := a
  unfold ready at hr
  cases ph with
  | initial => cases hr; exact ⟨rfl, rfl, rfl, rfl⟩
  | midValue =>
    simp only [Obj.ph, tidy] at hr
    split at hr
    · split at hr
      · cases hr
      · split at hr
        · split at hr
          · cases hr; exact ⟨rfl, rfl, rfl, rfl⟩
          · cases hr
        · split at hr
          · cases hr
          · split at hr
            · cases hr
              refine ⟨rfl, rfl, rfl, ?_⟩
              dsimp only
              split <;> rfl
            · cases hr
    · split at hr
      · cases hr; exact ⟨rfl, rfl, rfl, rfl⟩
      · cases hr
    · cases hr
  | midKey => cases hr
  | expectValue => cases hr
  | finished => cases hr

/-- An entry of a tree fits no field of a commit or tag. -/
theorem entry_hopeless (repr : Bool) (grow : Nat → Nat) (v : Val) (n : Nd) (r : Ents) :
    Hopeless repr grow (.own .treeEntry v (.map (.cons b!"mode" n r))) := by
  intro k hk
  unfold assignNd
  rw [if_neg (fun h => hk.1 h.symm)]
  unfold assignNd
  split
  · rename_i fs hs
    unfold assignEnts
    have hfind : find fs b!"mode" = none := by
      obtain ⟨h1, h2, h3⟩ := hk
      generalize k.obj.ty = u at hs h1 h2 h3
      cases u <;> first | contradiction | (cases hs; done) | (cases hs; rfl)
    cases hr : ready repr k with
    | none =>
      left
      have : assembleKey repr k = .panic := by
        unfold assembleKey
        rw [hs]
        simp only [hr]
      rw [this]
      rfl
    | some a =>
      obtain ⟨h1, h2, h3, h4⟩ := ready_keeps hr
      obtain ⟨μ, m, ⟨t', w, ma, g, b, ph, s, f, cm, kids⟩⟩ := a
      have : assembleKey repr k = .ok ⟨μ, m, .mk t' w ma g b .midKey s f cm kids⟩ := by
        unfold assembleKey
        rw [hs]
        simp only [hr]
      rw [this]
      have hs' : t'.shape = .struct fs := by rw [← hs, ← h2]; rfl
      have : keyAssign b!"mode" ⟨μ, m, .mk t' w ma g b .midKey s f cm kids⟩ =
          .err .invalidKey ⟨μ, m, .mk t' w ma g b .midKey s f cm kids⟩ := by
        unfold keyAssign
        simp only [hs', takeKey, hfind]
        rfl
      right
      refine ⟨.invalidKey, ⟨μ, m, .mk t' w ma g b .midKey s f cm kids⟩, ?_, h1, h2, h3, h4⟩
      simp only [Out.andThen, this]
  · exact .inr ⟨_, k, rfl, rfl, rfl, rfl, rfl⟩

theorem putBack_held {a k k' : St} {i : Nat} (h : Held t a) (hk : kid a i = some k) (h1 : k'.mark = k.mark)
    (h2 : k'.obj.ty = k.obj.ty) (h3 : k'.obj.m = k.obj.m) (h4 : k'.mem.next = k.mem.next) :
    Held t (putBack a i k') ∧ (putBack a i k').mark = a.mark := by
  obtain ⟨ty, hw, hcm, hn, hkids, hlen, hf⟩ := h
  obtain ⟨μ, m, ⟨t', w, ma, g, b, ph, s, f, cm, kids⟩⟩ := a
  simp only [Obj.ty, Obj.w, Obj.cm, Obj.kids, Obj.s, Obj.ph,
    Obj.f] at ty hw hcm hn hkids hf
  subst ty hw hcm
  unfold kid at hk
  simp only [Obj.kids, Obj.cm] at hk
  cases hki : kids[i]? with
  | none => rw [hki] at hk; cases hk
  | some k0 =>
    rw [hki] at hk
    cases hk
    have hset : ∀ x ∈ kids.set i k'.obj, x.ty ≠ .treeEntry ∧ x.ty ≠ .tag ∧ x.ty ≠ .commit := by
      intro x hx
      rcases List.mem_or_eq_of_mem_set hx with h | rfl
      · exact hkids x h
      · rw [h2]
        exact hkids k0 (List.mem_of_getElem? hki)
    have hslen : ∀ fs, t'.shape = .struct fs → (kids.set i k'.obj).length = fs.length := by
      intro fs h
      rw [List.length_set]
      exact hlen fs h
    unfold putBack
    cases hm : k'.obj.m with
    | mem p =>
      refine ⟨⟨rfl, rfl, rfl, ?_, hset, hslen, hf⟩, rfl⟩
      dsimp only
      rw [setMark_next, h4]
      exact hn
    | builder =>
      refine ⟨⟨rfl, rfl, ?_, by dsimp only; rw [h4]; exact hn, hset, hslen, hf⟩, rfl⟩
      dsimp only [Obj.cm]
      rw [h1]
      have : k0.m = .builder := h3.symm.trans hm
      simp only [this]
    | parent =>
      refine ⟨⟨rfl, rfl, ?_, by dsimp only; rw [h4]; exact hn, hset, hslen, hf⟩, rfl⟩
      dsimp only [Obj.cm]
      rw [h1]
      have : k0.m = .parent := h3.symm.trans hm
      simp only [this]

/-- A map whose first entry leads to nothing. -/
theorem ents_held (repr : Bool) (grow : Nat → Nat) (hs : t.shape = .struct fs)
    (h0 : ∃ fd, fs[0]? = some fd ∧ fd.required = true) {a : St} (h : Held t a) (k : Bytes) (n : Nd) (r : Ents)
    (hn : find fs k = none ∨ Hopeless repr grow n) :
    assignEnts repr grow (.cons k n r) a = .panic ∨
    ∃ e b, assignEnts repr grow (.cons k n r) a = .err e b ∧ Held t b ∧ b.mark = a.mark := by
  have hs1 : a.obj.ty.shape = .struct fs := by rw [h.ty]; exact hs
  unfold assignEnts
  cases hr : ready repr a with
  | none =>
    left
    have : assembleKey repr a = .panic := by
      unfold assembleKey
      rw [hs1]
      simp only [hr]
    rw [this]
    rfl
  | some a' =>
    obtain ⟨h1, h2, h3⟩ := ready_held repr hs h0 h hr
    obtain ⟨ty, hw, hcm, hnx, hkids, hlen, hf⟩ := h1
    obtain ⟨μ, m, ⟨t', w, ma, g, b, ph, s, f, cm, kids⟩⟩ := a'
    simp only [Obj.ty, Obj.w, Obj.cm, Obj.kids, Obj.s, Obj.ph,
      Obj.f] at ty hw hcm hnx hkids hf h2 h3
    subst ty hw hcm
    have hak : assembleKey repr a = .ok ⟨μ, m, .mk t' (some (0, [])) ma g b .midKey s f .absent kids⟩ := by
      unfold assembleKey
      rw [hs1]
      simp only [hr]
    rw [hak]
    simp only [Out.andThen]
    cases htk : takeKey fs k s with
    | panic =>
      left
      have : keyAssign k ⟨μ, m, .mk t' (some (0, [])) ma g b .midKey s f .absent kids⟩ = .panic := by
        simp [keyAssign, hs, htk]
      simp only [this]
    | err e =>
      right
      have : keyAssign k ⟨μ, m, .mk t' (some (0, [])) ma g b .midKey s f .absent kids⟩ =
          .err e ⟨μ, m, .mk t' (some (0, [])) ma g b .midKey s f .absent kids⟩ := by
        simp [keyAssign, hs, htk]
      simp only [this]
      exact ⟨_, _, rfl, ⟨rfl, rfl, rfl, hnx, hkids, hlen, .inr (.inl rfl)⟩, h2⟩
    | ok p =>
      obtain ⟨i, fd⟩ := p
      have hka : keyAssign k ⟨μ, m, .mk t' (some (0, [])) ma g b .midKey s f .absent kids⟩ =
          .ok ⟨μ, m, .mk t' (some (0, [])) ma g b .expectValue (s + (1 <<< i)) i .absent kids⟩ := by
        simp [keyAssign, hs, htk]
      simp only [hka]
      have hfi : find fs k ≠ none := by
        intro hf0
        unfold takeKey at htk
        rw [hf0] at htk
        cases htk
      have hop := hn.resolve_left hfi
      unfold assembleValue
      simp only [Obj.ty, hs]
      cases hfd : fs[i]? with
      | none => exact .inl rfl
      | some fd' =>
        dsimp only
        cases hl : lendField fd' i μ (some (0, [])) with
        | none => exact .inl rfl
        | some q =>
          obtain ⟨kw, km⟩ := q
          dsimp only
          have hheld : Held t' ⟨μ, m, .mk t' (some (0, [])) ma g b .midValue (s + (1 <<< i)) i .absent
              (modifyKid (Obj.lend kw km) i kids)⟩ := by
            refine ⟨rfl, rfl, rfl, hnx, ?_, (fun fs h => (modKid_length _ _ _).trans (hlen fs h)), ?_⟩
            · exact modKid_ty (P := fun u => u ≠ .treeEntry ∧ u ≠ .tag ∧ u ≠ .commit) (lend_ty_eq kw km) hkids
            · cases i with
              | zero => exact .inr (.inr ⟨rfl, rfl⟩)
              | succ i =>
                left
                dsimp only [Obj.s]
                have : 1 <<< (i + 1) = 2 * 2 ^ i := by
                  rw [Nat.shiftLeft_eq, Nat.one_mul, Nat.pow_succ, Nat.mul_comm]
                rw [this]
                omega
          simp only [Obj.f]
          generalize hA : (⟨μ, m, .mk t' (some (0, [])) ma g b .midValue (s + (1 <<< i)) i .absent
              (modifyKid (Obj.lend kw km) i kids)⟩ : St) = A at hheld
          have hAm : A.mark = m := by rw [← hA]
          unfold withKid
          cases hkid : kid A i with
          | none =>
            exfalso
            unfold kid at hkid
            split at hkid
            · rename_i hnone
              have h1 := List.getElem?_eq_none_iff.1 hnone
              have h2 := (List.getElem?_eq_some_iff.1 hfd).1
              have h3 := hheld.len fs hs
              omega
            · cases hkid
          | some k1 =>
            dsimp only
            have hty : k1.obj.ty ≠ .treeEntry ∧ k1.obj.ty ≠ .tag ∧ k1.obj.ty ≠ .commit := by
              unfold kid at hkid
              split at hkid
              · cases hkid
              · rename_i k0 hk0
                cases hkid
                exact hheld.kids k0 (List.mem_of_getElem? hk0)
            rcases hop k1 hty with hp | ⟨e, k2, hp, g1, g2, g3, g4⟩
            · rw [hp]; exact .inl rfl
            · rw [hp]
              obtain ⟨j1, j2⟩ := putBack_held hheld hkid g1 g2 g3 g4
              exact .inr ⟨e, _, rfl, j1, by rw [j2, hAm]; exact h2⟩

/-- A map without entries. -/
theorem empty_held (repr : Bool) (grow : Nat → Nat) (hs : t.shape = .struct fs)
    (h0 : ∃ fd, fs[0]? = some fd ∧ fd.required = true) (hsuf : sufficient fs % 2 = 1) {a : St} (h : Held t a) :
    assignEnts repr grow .nil a = .panic ∨
    ∃ e b, assignEnts repr grow .nil a = .err e b ∧ Held t b ∧ b.mark = a.mark := by
  have hs1 : a.obj.ty.shape = .struct fs := by rw [h.ty]; exact hs
  unfold assignEnts finish
  rw [hs1]
  cases hr : ready repr a with
  | none => exact .inl rfl
  | some a' =>
    obtain ⟨h1, h2, h3⟩ := ready_held repr hs h0 h hr
    obtain ⟨μ, m, ⟨t', w, ma, g, b, ph, s, f, cm, kids⟩⟩ := a'
    dsimp only
    rw [if_pos]
    · exact .inr ⟨_, _, rfl, h1, h2⟩
    · intro he
      have h3 : s % 2 = 0 := h3
      have : (s &&& sufficient fs).testBit 0 = (sufficient fs).testBit 0 := by rw [he]
      rw [Nat.testBit_and, Nat.testBit_zero, Nat.testBit_zero, hsuf, h3] at this
      simp at this

/-- Commits and tags. -/
theorem struct_first (ht : t = .commit ∨ t = .tag) : ∃ fs, t.shape = .struct fs ∧
    (∃ fd, fs[0]? = some fd ∧ fd.required = true) ∧ sufficient fs % 2 = 1 := by
  rcases ht with rfl | rfl
  · exact ⟨_, rfl, ⟨_, rfl, rfl⟩, by decide⟩
  · exact ⟨_, rfl, ⟨_, rfl, rfl⟩, by decide⟩

theorem plain_own_map {v : Verif.Own} {d : Nd} (hk : v.kind = .map) (h : Plain (.own v) d) :
    ∃ ds, d = .map ds ∧ OffersEnts v.entries ds := by
  have hk' : (Node.own v).kind = .map := hk
  cases h with
  | text h _ => rw [hk'] at h; cases h
  | link h _ => rw [hk'] at h; cases h
  | other h => rw [hk'] at h; rcases h with h | h | h | h <;> cases h
  | list h _ _ => rw [hk'] at h; cases h
  | map h1 h2 h3 =>
    simp only [Node.mapIterator, hk, if_true, Option.some.injEq] at h2
    subst h2
    exact ⟨_, rfl, h3⟩

theorem offers_own {v : Verif.Own} {u : T} {d : Nd} (hu : v.proto = protoOf u) (h : Offers (.own v) d) :
    ∃ d', d = .own u (valOf v) d' ∧ Plain (.own v) d' := by
  cases h with
  | @own _ u' d' h1 h2 =>
    have : u' = u := by
      have := h1.symm.trans hu
      revert this
      cases u' <;> cases u <;> simp [protoOf]
    subst this
    exact ⟨d', rfl, h2⟩
  | plain h1 _ => exact absurd hu (h1 v u rfl)

/-- An object of another type. -/
theorem other_held (repr : Bool) (grow : Nat → Nat) (ht : t = .commit ∨ t = .tag) {a : St} (h : Held t a)
    {o : Verif.Obj} {d : Nd} (ho : o.own.proto ≠ protoOf t) (hd : Offers (.own o.own) d) :
    assignNd repr grow d a = .panic ∨ ∃ e b, assignNd repr grow d a = .err e b ∧ Held t b ∧ b.mark = a.mark := by
  obtain ⟨fs, hs, h0, hsuf⟩ := struct_first ht
  have hs1 : a.obj.ty.shape = .struct fs := by rw [h.ty]; exact hs
  cases o with
  | blob b =>
    cases hd with
    | @own _ u _ h1 _ => exact absurd h1 (by cases u <;> simp [Verif.Obj.own, Verif.Own.proto, protoOf])
    | plain _ h2 =>
      cases h2 with
      | text h _ => cases h
      | link h _ => cases h
      | other _ => exact .inr ⟨_, a, rfl, h, rfl⟩
      | list h _ _ => cases h
      | map h _ _ => cases h
  | tree tr =>
    cases hd with
    | @own _ u _ h1 _ => exact absurd h1 (by cases u <;> simp [Verif.Obj.own, Verif.Own.proto, protoOf])
    | plain _ h2 =>
      obtain ⟨ds, rfl, h3⟩ := plain_own_map rfl h2
      have e : assignNd repr grow (.map ds) a = assignEnts repr grow ds a := by
        simp only [assignNd, hs1]
      rw [e]
      have h3 : OffersEnts (tr.t.map fun r => (r.1, Node.own (.treeEntry r.2))) ds := h3
      cases hl : tr.t with
      | nil =>
        rw [hl] at h3
        cases h3
        exact empty_held repr grow hs h0 hsuf h
      | cons x l =>
        rw [hl] at h3
        cases h3 with
        | cons h4 h5 =>
          obtain ⟨d', rfl, h6⟩ := offers_own (u := .treeEntry) rfl h4
          obtain ⟨ds', rfl, h7⟩ := plain_own_map rfl h6
          cases h7 with
          | cons h8 h9 => exact ents_held repr grow hs h0 h _ _ _ (.inr (entry_hopeless repr grow _ _ _))
  | commit c =>
    obtain ⟨d', rfl, h6⟩ := offers_own (u := .commit) rfl hd
    obtain ⟨ds', rfl, h7⟩ := plain_own_map rfl h6
    rcases ht with rfl | rfl
    · exact absurd rfl ho
    · have e : assignNd repr grow (.own .commit (valOf (Verif.Obj.commit c).own) (.map ds')) a =
          assignEnts repr grow ds' a := by
        unfold assignNd
        rw [if_neg (by rw [h.ty]; simp)]
        simp only [assignNd, hs1]
      rw [e]
      cases h7 with
      | cons h8 h9 => exact ents_held repr grow hs h0 h _ _ _ (.inl (by cases hs; rfl))
  | tag c =>
    obtain ⟨d', rfl, h6⟩ := offers_own (u := .tag) rfl hd
    obtain ⟨ds', rfl, h7⟩ := plain_own_map rfl h6
    rcases ht with rfl | rfl
    · have e : assignNd repr grow (.own .tag (valOf (Verif.Obj.tag c).own) (.map ds')) a =
          assignEnts repr grow ds' a := by
        unfold assignNd
        rw [if_neg (by rw [h.ty]; simp)]
        simp only [assignNd, hs1]
      rw [e]
      cases h7 with
      | cons h8 h9 => exact ents_held repr grow hs h0 h _ _ _ (.inl (by cases hs; rfl))
    · exact absurd rfl ho

/-- An object of the own type. -/
theorem own_held (repr : Bool) (grow : Nat → Nat) (ht : t = .commit ∨ t = .tag) {a : St} (h : Held t a)
    {v : Verif.Own} {d : Nd} (ho : v.proto = protoOf t) (hc : Complete t (valOf v)) (hd : Offers (.own v) d) :
    (a.mark = .absent → ∃ b, assignNd repr grow d a = .ok b ∧ Held t b ∧ b.mark = .value ∧ build b = .ok (valOf v) ∧
      (b.obj.ph = a.obj.ph)) ∧
    (a.mark ≠ .absent → assignNd repr grow d a = .panic) := by
  obtain ⟨fs, hs, h0, hsuf⟩ := struct_first ht
  obtain ⟨d', rfl, -⟩ := offers_own ho hd
  obtain ⟨ty, hw, hcm, hn, hk, hlen, hf⟩ := h
  obtain ⟨μ, m, ⟨t', w, ma, g, b, ph, s, f, cm, kids⟩⟩ := a
  simp only [Obj.ty, Obj.w, Obj.cm, Obj.kids, Obj.s, Obj.ph, Obj.f] at ty hw hcm hn hk hlen hf
  subst ty hw hcm
  have e : assignNd repr grow (.own t' (valOf v) d')
      ⟨μ, m, .mk t' (some (0, [])) ma g b ph s f .absent kids⟩ =
      assignSelf t' (valOf v) ⟨μ, m, .mk t' (some (0, [])) ma g b ph s f .absent kids⟩ := by
    unfold assignNd
    exact if_pos rfl
  have hput := store_ok (Nat.le_refl (rank t')) (Nat.le_refl (rank t')) hc μ
  rw [e]
  constructor
  · intro hm
    have hm : m = .absent := hm
    subst hm
    refine ⟨⟨(store (rank t') t' (valOf v) μ).1.write (0, []) (store (rank t') t' (valOf v) μ).2, .value,
      .mk t' (some (0, [])) ma g b ph s f .absent kids⟩, ?_, ⟨rfl, rfl, rfl, ?_, hk, hlen, hf⟩, rfl, ?_, rfl⟩
    · simp only [assignSelf, hs, ne_eq, not_true_eq_false, if_false, if_true]
    · have := hput.next
      show 1 ≤ (store (rank t') t' (valOf v) μ).1.next
      omega
    · unfold build
      simp only [if_true, Obj.w, Obj.ty]
      congr 1
      have hr : ((store (rank t') t' (valOf v) μ).1.write (0, []) (store (rank t') t' (valOf v) μ).2).read (0, []) =
          (store (rank t') t' (valOf v) μ).2 := by
        simp [Mem.read, Mem.write, MVal.get, MVal.set]
      rw [hr]
      refine load_rep (Nat.le_refl _) hc (rep_frame hput.rep (fun _ h => h) fun r hr => ?_)
      have hne : r ≠ 0 := by
        have := hr.1
        omega
      simp only [Mem.write, if_neg hne]
  · intro hm
    have hm : ¬ m = .absent := hm
    simp only [assignSelf, hs, ne_eq, not_true_eq_false, if_false, if_neg hm]

theorem find_unnamed (ht : t = .commit ∨ t = .tag) (hs : t.shape = .struct fs) {k : Bytes} (h : k ∉ t.fieldNames) :
    find fs k = none := by
  unfold find
  rw [List.findIdx?_eq_none_iff]
  intro x hx
  rcases ht with rfl | rfl <;> cases hs <;> simp only [T.fieldNames, List.mem_cons, List.not_mem_nil, or_false,
    not_or] at h hx
  · obtain ⟨h1, h2, h3, h4, h5, h6, h7, h8, h9⟩ := h
    rcases hx with rfl | rfl | rfl | rfl | rfl | rfl | rfl | rfl | rfl <;>
      simp only [decide_eq_false_iff_not] <;> intro e <;> exact absurd e.symm (by assumption)
  · obtain ⟨h1, h2, h3, h4, h5⟩ := h
    rcases hx with rfl | rfl | rfl | rfl | rfl <;>
      simp only [decide_eq_false_iff_not] <;> intro e <;> exact absurd e.symm (by assumption)

/-- At a name that the type does not have, the assembler gets stuck. -/
theorem ents_stuck (repr : Bool) (grow : Nat → Nat) (hs : t.shape = .struct fs) {a : St} (h : a.obj.ty = t)
    (k : Bytes) (n : Nd) (r : Ents) (hn : find fs k = none) :
    (a.obj.ph ≠ .midKey → assignEnts repr grow (.cons k n r) a = .panic ∨ ∃ e b,
      assignEnts repr grow (.cons k n r) a = .err e b ∧ b.obj.ph = .midKey ∧ (a.obj.ph = .initial → b.mem = a.mem)) ∧
    (a.obj.ph = .midKey → assignEnts repr grow (.cons k n r) a = .panic) := by
  have hs1 : a.obj.ty.shape = .struct fs := by rw [h]; exact hs
  constructor
  · intro _
    unfold assignEnts
    cases hr : ready repr a with
    | none =>
      left
      have : assembleKey repr a = .panic := by
        unfold assembleKey
        rw [hs1]
        simp only [hr]
      rw [this]
      rfl
    | some a' =>
      right
      have hm : a.obj.ph = .initial → a' = a := by
        intro hp
        unfold ready at hr
        rw [hp] at hr
        exact (Option.some.inj hr).symm
      have ht' : a'.obj.ty = a.obj.ty := (ready_keeps hr).2.1
      obtain ⟨μ, m, ⟨t', w, ma, g, b, ph, s, f, cm, kids⟩⟩ := a'
      have hs2 : t'.shape = .struct fs := by
        have : t' = t := ht'.trans h
        rw [this]; exact hs
      have hak : assembleKey repr a = .ok ⟨μ, m, .mk t' w ma g b .midKey s f cm kids⟩ := by
        unfold assembleKey
        rw [hs1]
        simp only [hr]
      rw [hak]
      have hka : keyAssign k ⟨μ, m, .mk t' w ma g b .midKey s f cm kids⟩ =
          .err .invalidKey ⟨μ, m, .mk t' w ma g b .midKey s f cm kids⟩ := by
        simp [keyAssign, hs2, takeKey, hn]
      simp only [Out.andThen, hka]
      exact ⟨_, _, rfl, rfl, fun hp => by rw [← hm hp]⟩
  · intro hp
    unfold assignEnts assembleKey ready
    rw [hs1, hp]
    rfl

variable {repr : Bool} {grow : Nat → Nat}

/-- The outcomes of one `Decode`. -/
theorem on_held (ht : t = .commit ∨ t = .tag) {s : Stream} {a : St} (h : Held t a) {out : Handles.Out}
    (ho : DecodeOn repr grow s a out) :
    (¬ HoldsOwn t s ∧ (out = .panic ∨ ∃ e b, out = .err e b ∧ Held t b ∧ b.mark = a.mark)) ∨
    (HoldsOwn t s ∧ (a.mark ≠ .absent → out = .panic) ∧
      (a.mark = .absent → ∃ b, out = .ok b ∧ Held t b ∧ b.mark = .value)) := by
  cases ho with
  | fails he =>
    refine .inl ⟨?_, .inr ⟨_, _, rfl, h, rfl⟩⟩
    rintro ⟨o, h1, _⟩
    rw [he] at h1
    cases h1
  | @gives o d hp hd =>
    by_cases hq : o.own.proto = protoOf t
    · obtain ⟨h1, h2⟩ := own_held repr grow ht h hq (complete_own hq) hd
      refine .inr ⟨⟨o, hp, hq⟩, h2, fun hm => ?_⟩
      obtain ⟨b, h3, h4, h5, -⟩ := h1 hm
      exact ⟨b, h3, h4, h5⟩
    · refine .inl ⟨?_, other_held repr grow ht h hq hd⟩
      rintro ⟨o', h1, h2⟩
      rw [hp] at h1
      cases h1
      exact hq h2

/-- Between calls. -/
theorem decodes_held (ht : t = .commit ∨ t = .tag) {a b : St} {l : List Stream} (hd : Decodes repr grow a l b)
    (h : Held t a) : Held t b ∧ (a.mark = .value → b.mark = .value) ∧
      (a.mark = .absent → (∀ s ∈ l, ¬ HoldsOwn t s) → b.mark = .absent) ∧
      (a.mark = .absent → (∃ s ∈ l, HoldsOwn t s) → b.mark = .value) := by
  induction hd with
  | nil a => exact ⟨h, id, fun h _ => h, fun _ ⟨s, hs, _⟩ => by cases hs⟩
  | @ok s r a b c h1 _ ih =>
    rcases on_held ht h h1 with ⟨_, h2 | ⟨e, b', h2, _⟩⟩ | ⟨hs, h2, h3⟩
    · cases h2
    · cases h2
    · have hm : a.mark = .absent := by
        apply Classical.byContradiction
        intro hm
        cases h2 hm
      obtain ⟨b', h4, h5, h6⟩ := h3 hm
      cases h4
      obtain ⟨i1, i2, i3, i4⟩ := ih h5
      exact ⟨i1, fun hv => absurd (hm.symm.trans hv) (by decide), fun _ hn => absurd hs (hn s (List.mem_cons_self ..)), fun _ _ => i2 h6⟩
  | @err s r a b c e h1 _ ih =>
    rcases on_held ht h h1 with ⟨hn, h2 | ⟨e, b', h2, h3, h4⟩⟩ | ⟨hs, h2, h3⟩
    · cases h2
    · cases h2
      obtain ⟨i1, i2, i3, i4⟩ := ih h3
      refine ⟨i1, fun hv => i2 (h4.trans hv), fun hm hl => i3 (h4.trans hm) fun s hs => hl s (List.mem_cons_of_mem _ hs),
        fun hm ⟨s', hs', hs2⟩ => i4 (h4.trans hm) ⟨s', ?_, hs2⟩⟩
      rcases List.mem_cons.mp hs' with rfl | hs'
      · exact absurd hs2 hn
      · exact hs'
    · by_cases hm : a.mark = .absent
      · obtain ⟨b', h4, _⟩ := h3 hm
        cases h4
      · cases h2 hm

/-- Not in the middle of a value. -/
def Calm (a : St) : Prop := a.obj.ph = .initial ∨ a.obj.ph = .midKey

/-- One `Decode` of an object of another type, or of none. -/
theorem on_calm (ht : t = .commit ∨ t = .tag) {s : Stream} {a b : St} (h : Held t a) (hc : Calm a) {e : Err}
    (hn : ¬ HoldsNamed t s) (ho : DecodeOn repr grow s a (.err e b)) : Calm b ∧ b.mem = a.mem := by
  obtain ⟨fs, hs, h0, hsuf⟩ := struct_first ht
  have hs1 : a.obj.ty.shape = .struct fs := by rw [h.ty]; exact hs
  have key : ∀ k n r, find fs k = none → assignEnts repr grow (.cons k n r) a = .err e b →
      Calm b ∧ b.mem = a.mem := by
    intro k n r hk he
    obtain ⟨h1, h2⟩ := ents_stuck repr grow hs h.ty k n r hk
    rcases hc with hc | hc
    · rcases h1 (by rw [hc]; decide) with h3 | ⟨e', b', h3, h4, h5⟩
      · rw [he] at h3; cases h3
      · rw [he] at h3
        cases h3
        exact ⟨.inr h4, h5 hc⟩
    · rw [he] at h2
      cases h2 hc
  generalize hout : Handles.Out.err e b = out at ho
  cases ho with
  | fails he => cases hout; exact ⟨hc, rfl⟩
  | @gives o d hp hd =>
    cases o with
    | blob x =>
      cases hd with
      | @own _ u _ h1 _ => exact absurd h1 (by cases u <;> simp [Verif.Obj.own, Verif.Own.proto, protoOf])
      | plain _ h2 =>
        cases h2 with
        | text h _ => cases h
        | link h _ => cases h
        | other _ => cases hout; exact ⟨hc, rfl⟩
        | list h _ _ => cases h
        | map h _ _ => cases h
    | tree tr =>
      cases hd with
      | @own _ u _ h1 _ => exact absurd h1 (by cases u <;> simp [Verif.Obj.own, Verif.Own.proto, protoOf])
      | plain _ h2 =>
        obtain ⟨ds, rfl, h3⟩ := plain_own_map rfl h2
        have e1 : assignNd repr grow (.map ds) a = assignEnts repr grow ds a := by
          simp only [assignNd, hs1]
        rw [e1] at hout
        have h3 : OffersEnts (tr.t.map fun r => (r.1, Node.own (.treeEntry r.2))) ds := h3
        cases hl : tr.t with
        | nil =>
          rw [hl] at h3
          cases h3
          unfold assignEnts finish at hout
          rw [hs1] at hout
          rcases hc with hc | hc
          · have hr : ready repr a = some a := by unfold ready; rw [hc]
            rw [hr] at hout
            obtain ⟨μ, m, ⟨t', w, ma, g, b', ph, s, f, cm, kids⟩⟩ := a
            dsimp only at hout
            split at hout
            · cases hout; exact ⟨.inl hc, rfl⟩
            · cases hout
          · have hr : ready repr a = none := by unfold ready; rw [hc]
            rw [hr] at hout
            cases hout
        | cons x l =>
          rw [hl] at h3
          cases h3 with
          | cons h4 h5 =>
            refine key _ _ _ (find_unnamed ht hs fun hk => hn ⟨tr, x.1, x.2, l, hp, hl, hk⟩) hout.symm
    | commit c =>
      obtain ⟨d', rfl, h6⟩ := offers_own (u := .commit) rfl hd
      obtain ⟨ds', rfl, h7⟩ := plain_own_map rfl h6
      rcases ht with rfl | rfl
      · obtain ⟨h1, h2⟩ := own_held repr grow (.inl rfl) h (v := (Verif.Obj.commit c).own) rfl (complete_own rfl) hd
        by_cases hm : a.mark = .absent
        · obtain ⟨b', h3, _⟩ := h1 hm
          rw [h3] at hout; cases hout
        · rw [h2 hm] at hout; cases hout
      · have e1 : assignNd repr grow (.own .commit (valOf (Verif.Obj.commit c).own) (.map ds')) a =
            assignEnts repr grow ds' a := by
          unfold assignNd
          rw [if_neg (by rw [h.ty]; simp)]
          simp only [assignNd, hs1]
        rw [e1] at hout
        cases h7 with
        | cons h8 h9 => exact key _ _ _ (by cases hs; rfl) hout.symm
    | tag c =>
      obtain ⟨d', rfl, h6⟩ := offers_own (u := .tag) rfl hd
      obtain ⟨ds', rfl, h7⟩ := plain_own_map rfl h6
      rcases ht with rfl | rfl
      · have e1 : assignNd repr grow (.own .tag (valOf (Verif.Obj.tag c).own) (.map ds')) a =
            assignEnts repr grow ds' a := by
          unfold assignNd
          rw [if_neg (by rw [h.ty]; simp)]
          simp only [assignNd, hs1]
        rw [e1] at hout
        cases h7 with
        | cons h8 h9 => exact key _ _ _ (by cases hs; rfl) hout.symm
      · obtain ⟨h1, h2⟩ := own_held repr grow (.inr rfl) h (v := (Verif.Obj.tag c).own) rfl (complete_own rfl) hd
        by_cases hm : a.mark = .absent
        · obtain ⟨b', h3, _⟩ := h1 hm
          rw [h3] at hout; cases hout
        · rw [h2 hm] at hout; cases hout

/-- A name that the type does not have, to an assembler at the start. -/
theorem ents_refused (hs : t.shape = .struct fs) {a : St} (h : a.obj.ty = t) (hp : a.obj.ph = .initial)
    (k : Bytes) (n : Nd) (r : Ents) (hn : find fs k = none) :
    ∃ b, assignEnts repr grow (.cons k n r) a = .err .invalidKey b := by
  have hs1 : a.obj.ty.shape = .struct fs := by rw [h]; exact hs
  obtain ⟨μ, m, ⟨t', w, ma, g, b, ph, s, f, cm, kids⟩⟩ := a
  simp only [Obj.ph, Obj.ty] at hp h hs1
  subst hp
  have hak : assembleKey repr ⟨μ, m, .mk t' w ma g b .initial s f cm kids⟩ =
      .ok ⟨μ, m, .mk t' w ma g b .midKey s f cm kids⟩ := by
    simp [assembleKey, Obj.ty, hs1, ready, Obj.ph]
  have hka : keyAssign k ⟨μ, m, .mk t' w ma g b .midKey s f cm kids⟩ =
      .err .invalidKey ⟨μ, m, .mk t' w ma g b .midKey s f cm kids⟩ := by
    simp [keyAssign, hs1, takeKey, hn]
  unfold assignEnts
  rw [hak]
  simp only [Out.andThen, hka]
  exact ⟨_, rfl⟩

/-- What a commit or tag of the other type comes down to. -/
theorem rival_ents (ht : t = .commit ∨ t = .tag) (hs : t.shape = .struct fs) {a : St} (h : Held t a)
    {o : Verif.Obj} {d : Nd} (ho : o.own.proto ≠ protoOf t)
    (hr : (∃ c, o = .commit c) ∨ ∃ g, o = .tag g) (hd : Offers (.own o.own) d) :
    ∃ k n r, assignNd repr grow d a = assignEnts repr grow (.cons k n r) a ∧ find fs k = none := by
  have hs1 : a.obj.ty.shape = .struct fs := by rw [h.ty]; exact hs
  rcases hr with ⟨c, rfl⟩ | ⟨c, rfl⟩
  · obtain ⟨d', rfl, h6⟩ := offers_own (u := .commit) rfl hd
    obtain ⟨ds', rfl, h7⟩ := plain_own_map rfl h6
    rcases ht with rfl | rfl
    · exact absurd rfl ho
    · have e1 : assignNd repr grow (.own .commit (valOf (Verif.Obj.commit c).own) (.map ds')) a =
          assignEnts repr grow ds' a := by
        unfold assignNd
        rw [if_neg (by rw [h.ty]; simp)]
        simp only [assignNd, hs1]
      rw [e1]
      cases h7 with
      | cons h8 h9 => exact ⟨_, _, _, rfl, by cases hs; rfl⟩
  · obtain ⟨d', rfl, h6⟩ := offers_own (u := .tag) rfl hd
    obtain ⟨ds', rfl, h7⟩ := plain_own_map rfl h6
    rcases ht with rfl | rfl
    · have e1 : assignNd repr grow (.own .tag (valOf (Verif.Obj.tag c).own) (.map ds')) a =
          assignEnts repr grow ds' a := by
        unfold assignNd
        rw [if_neg (by rw [h.ty]; simp)]
        simp only [assignNd, hs1]
      rw [e1]
      cases h7 with
      | cons h8 h9 => exact ⟨_, _, _, rfl, by cases hs; rfl⟩
    · exact absurd rfl ho

/-- A stuck assembler, and a map that is not its own. -/
theorem on_stuck (ht : t = .commit ∨ t = .tag) {s : Stream} {a : St} (h : Held t a) (hp : a.obj.ph = .midKey)
    {out : Handles.Out} (ho : DecodeOn repr grow s a out) :
    (HoldsRival t s ∨ HoldsTree s → out = .panic) ∧ (∀ e b, out = .err e b → b = a) ∧
    (∀ b, out = .ok b → b.obj.ph = .midKey) := by
  obtain ⟨fs, hs, h0, hsuf⟩ := struct_first ht
  have hs1 : a.obj.ty.shape = .struct fs := by rw [h.ty]; exact hs
  have hents : ∀ ds, assignEnts repr grow ds a = .panic := by
    intro ds
    cases ds <;> simp [assignEnts, finish, assembleKey, ready, hp, hs1, Out.andThen]
  cases ho with
  | fails he =>
    refine ⟨?_, fun e b h => by cases h; rfl, fun b h => by cases h⟩
    rintro (⟨o, h1, _⟩ | ⟨g, h1⟩) <;> (rw [he] at h1; cases h1)
  | @gives o d hq hd =>
    by_cases hv : o.own.proto = protoOf t
    · obtain ⟨h1, h2⟩ := own_held repr grow ht h hv (complete_own hv) hd
      by_cases hm : a.mark = .absent
      · obtain ⟨b, h3, -, -, -, h4⟩ := h1 hm
        rw [h3]
        refine ⟨?_, fun e b h => (nomatch h), fun b' h => by cases h; rw [h4]; exact hp⟩
        rintro (⟨o', h5, h6, _⟩ | ⟨g, h5⟩)
        · rw [hq] at h5; cases h5; exact absurd hv h6
        · rw [hq] at h5; cases h5
          rcases ht with rfl | rfl <;> cases hv
      · rw [h2 hm]
        exact ⟨fun _ => rfl, fun _ _ h => (nomatch h), fun _ h => by cases h⟩
    · have hmap : HoldsRival t s ∨ HoldsTree s → assignNd repr grow d a = .panic := by
        rintro (⟨o', h5, h6, h7⟩ | ⟨g, h5⟩)
        · rw [hq] at h5; cases h5
          obtain ⟨k, n, r, h8, -⟩ := rival_ents (repr := repr) (grow := grow) ht hs h hv h7 hd
          rw [h8, hents]
        · rw [hq] at h5; cases h5
          cases hd with
          | @own _ u _ h1 _ => exact absurd h1 (by cases u <;> simp [Verif.Obj.own, Verif.Own.proto, protoOf])
          | plain _ h2 =>
            obtain ⟨ds, rfl, -⟩ := plain_own_map rfl h2
            simp only [assignNd, hs1, hents]
      refine ⟨hmap, ?_, ?_⟩
      · intro e b hb
        cases o with
        | blob x =>
          cases hd with
          | @own _ u _ h1 _ => exact absurd h1 (by cases u <;> simp [Verif.Obj.own, Verif.Own.proto, protoOf])
          | plain _ h2 =>
            cases h2 with
            | text h _ => cases h
            | link h _ => cases h
            | other _ => cases hb; rfl
            | list h _ _ => cases h
            | map h _ _ => cases h
        | tree tr => rw [hmap (.inr ⟨tr, hq⟩)] at hb; cases hb
        | commit c => rw [hmap (.inl ⟨_, hq, hv, .inl ⟨c, rfl⟩⟩)] at hb; cases hb
        | tag c => rw [hmap (.inl ⟨_, hq, hv, .inr ⟨c, rfl⟩⟩)] at hb; cases hb
      · intro b hb
        rcases other_held repr grow ht h hv hd with h1 | ⟨e, b', h1, _⟩ <;> (rw [h1] at hb; cases hb)

/-- A commit or tag of the other type leaves the assembler stuck. -/
theorem on_rival (ht : t = .commit ∨ t = .tag) {s : Stream} {a : St} (h : Held t a) (hr : HoldsRival t s)
    {out : Handles.Out} (ho : DecodeOn repr grow s a out) :
    (out = .panic ∨ ∃ e b, out = .err e b ∧ b.obj.ph = .midKey) ∧
    (a.obj.ph = .initial → ∃ b, out = .err .invalidKey b) := by
  obtain ⟨fs, hs, h0, hsuf⟩ := struct_first ht
  obtain ⟨o, h1, h2, h3⟩ := hr
  cases ho with
  | fails he => rw [he] at h1; cases h1
  | @gives o' d hq hd =>
    rw [hq] at h1; cases h1
    obtain ⟨k, n, r, h8, h9⟩ := rival_ents (repr := repr) (grow := grow) ht hs h h2 h3 hd
    rw [h8]
    obtain ⟨h4, h5⟩ := ents_stuck repr grow hs h.ty k n r h9
    refine ⟨?_, fun hp => ents_refused hs h.ty hp k n r h9⟩
    by_cases hp : a.obj.ph = .midKey
    · exact .inl (h5 hp)
    · rcases h4 hp with h6 | ⟨e, b, h6, h7, _⟩
      · exact .inl h6
      · exact .inr ⟨e, b, h6, h7⟩

/-- What is no map of another type leaves the assembler where it was. -/
theorem on_initial (ht : t = .commit ∨ t = .tag) {s : Stream} {a : St} (h : Held t a) (hp : a.obj.ph = .initial)
    (hr : ¬ HoldsRival t s) (hn : ¬ HoldsTree s) {out : Handles.Out} (ho : DecodeOn repr grow s a out) :
    (∀ e b, out = .err e b → b = a) ∧ (∀ b, out = .ok b → b.obj.ph = .initial) := by
  cases ho with
  | fails he => exact ⟨fun e b h => by cases h; rfl, fun b h => by cases h⟩
  | @gives o d hq hd =>
    by_cases hv : o.own.proto = protoOf t
    · obtain ⟨h1, h2⟩ := own_held repr grow ht h hv (complete_own hv) hd
      by_cases hm : a.mark = .absent
      · obtain ⟨b, h3, -, -, -, h4⟩ := h1 hm
        rw [h3]
        exact ⟨fun e b h => (nomatch h), fun b' h => by cases h; rw [h4]; exact hp⟩
      · rw [h2 hm]
        exact ⟨fun _ _ h => (nomatch h), fun _ h => by cases h⟩
    · cases o with
      | blob x =>
        cases hd with
        | @own _ u _ h1 _ => exact absurd h1 (by cases u <;> simp [Verif.Obj.own, Verif.Own.proto, protoOf])
        | plain _ h2 =>
          cases h2 with
          | text h _ => cases h
          | link h _ => cases h
          | other _ => exact ⟨fun e b h => by cases h; rfl, fun b h => by cases h⟩
          | list h _ _ => cases h
          | map h _ _ => cases h
      | tree tr => exact absurd ⟨tr, hq⟩ hn
      | commit c => exact absurd ⟨_, hq, hv, .inl ⟨c, rfl⟩⟩ hr
      | tag c => exact absurd ⟨_, hq, hv, .inr ⟨c, rfl⟩⟩ hr

end Verif.Handles
