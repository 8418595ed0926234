import Verif.Model.Foreign
import Verif.Proofs.HandlesView

/-! `AssignNode` with any node on any handle. -/

namespace Verif.Handles

open Calls Spec

theorem after_andThen {o : Out} {f : St → Out} {P Q : St → Prop} (h : After o P) (hf : ∀ a, P a → After (f a) Q)
    (he : ∀ a, P a → Q a) : After (o.andThen f) Q := by
  cases o with
  | ok a => exact hf a h
  | err e a => exact he a h
  | panic => trivial
  | noHandle => trivial

/-- Something that all calls keep, and what is true of any state and a later one. -/
structure Walk (repr : Bool) (grow : Nat → Nat) (I : St → Prop) (R : St → St → Prop) : Prop where
  refl : ∀ a, I a → R a a
  trans : ∀ a b c, R a b → R b c → R a c
  step : ∀ a c, I a → After (rawCall repr grow a c) fun b => I b ∧ R a b
  kid : ∀ a i k, I a → kid a i = some k → I k
  back : ∀ a i k k', I a → Handles.kid a i = some k → I k' → R k k' → I (putBack a i k') ∧ R a (putBack a i k')

variable {repr : Bool} {grow : Nat → Nat} {I : St → Prop} {R : St → St → Prop}

theorem walk_kid (w : Walk repr grow I R) {act : St → Out} (h : ∀ a, I a → After (act a) fun b => I b ∧ R a b)
    (a : St) (i : Nat) (ha : I a) : After (withKid act a i) fun b => I b ∧ R a b := by
  unfold withKid
  cases hk : Handles.kid a i with
  | none => exact trivial
  | some k =>
    simp only
    have h1 := h k (w.kid a i k ha hk)
    cases ho : act k with
    | ok k' => rw [ho] at h1; exact w.back a i k k' ha hk h1.1 h1.2
    | err e k' => rw [ho] at h1; exact w.back a i k k' ha hk h1.1 h1.2
    | panic => exact trivial
    | noHandle => exact trivial

theorem walk_then (w : Walk repr grow I R) {a : St} {o : Out} {f : St → Out} (h : After o fun b => I b ∧ R a b)
    (hf : ∀ b, I b → After (f b) fun c => I c ∧ R b c) : After (o.andThen f) fun b => I b ∧ R a b :=
  after_andThen h (fun b hb => after_imp (hf b hb.1) fun c hc => ⟨hc.1, w.trans a b c hb.2 hc.2⟩) fun _ hb => hb

mutual

theorem walk_nd (w : Walk repr grow I R) : ∀ (n : Nd) (a : St), I a →
    After (assignNd repr grow n a) fun b => I b ∧ R a b
  | .null, a, ha => by
    unfold assignNd
    exact w.step a .assignNull ha
  | .own t v n, a, ha => by
    unfold assignNd
    split
    · exact w.step a (.assignSelf t v) ha
    · exact walk_nd w n a ha
  | .text b, a, ha => by
    unfold assignNd
    split
    · exact w.step a (.assignString b) ha
    · exact ⟨ha, w.refl a ha⟩
  | .link l, a, ha => by
    unfold assignNd
    split
    · exact w.step a (.assignLink l) ha
    · exact ⟨ha, w.refl a ha⟩
  | .other, a, ha => by
    unfold assignNd
    exact ⟨ha, w.refl a ha⟩
  | .list ns, a, ha => by
    unfold assignNd
    split
    · exact walk_nds w ns a ha
    · exact ⟨ha, w.refl a ha⟩
  | .map es, a, ha => by
    unfold assignNd
    split
    · exact walk_ents w es a ha
    · exact ⟨ha, w.refl a ha⟩

theorem walk_nds (w : Walk repr grow I R) : ∀ (ns : Nds) (a : St), I a →
    After (assignNds repr grow ns a) fun b => I b ∧ R a b
  | .nil, a, ha => by
    unfold assignNds
    exact w.step a .finish ha
  | .cons n r, a, ha => by
    unfold assignNds
    refine walk_then w (walk_then w (w.step a .assembleValue ha) fun b hb => ?_) fun b hb => walk_nds w r b hb
    exact walk_kid w (fun c hc => walk_nd w n c hc) b 0 hb

theorem walk_ents (w : Walk repr grow I R) : ∀ (es : Ents) (a : St), I a →
    After (assignEnts repr grow es a) fun b => I b ∧ R a b
  | .nil, a, ha => by
    unfold assignEnts
    exact w.step a .finish ha
  | .cons k n r, a, ha => by
    unfold assignEnts
    refine walk_then w (walk_then w (walk_then w (walk_then w (w.step a .assembleKey ha) fun b hb => ?_)
      fun b hb => ?_) fun b hb => ?_) fun b hb => walk_ents w r b hb
    · exact w.step b (.keyAssign k) hb
    · exact w.step b .assembleValue hb
    · exact walk_kid w (fun c hc => walk_nd w n c hc) b b.obj.f hb

end

theorem walk_static (repr : Bool) (grow : Nat → Nat) :
    Walk repr grow (fun _ => True) fun a b => b.obj.ty = a.obj.ty ∧ b.obj.m = a.obj.m where
  refl _ _ := ⟨rfl, rfl⟩
  trans _ _ _ h h' := ⟨h'.1.trans h.1, h'.2.trans h.2⟩
  step _ c _ := after_imp (raw_static c) fun _ h => ⟨trivial, h.1, h.2.2⟩
  kid _ _ _ _ _ := trivial
  back a i _ k' _ _ _ _ := ⟨trivial, (putBack_static a i k').1, (putBack_static a i k').2.2.1⟩

theorem loose_kid {n i : Nat} {a k : St} (h : Loose n a.obj) (hk : Handles.kid a i = some k) :
    k.mem = a.mem ∧ a.obj.kids[i]? = some k.obj ∧ Loose n k.obj ∧ k.obj.m = .parent := by
  unfold Handles.kid at hk
  split at hk
  · cases hk
  · rename_i o ho
    cases hk
    have hl : Loose n o := by
      cases h0 : a.obj with
      | mk t w m g b ph s f cm kids =>
        rw [h0] at h ho
        cases h with
        | mk l1 l2 l3 l4 l5 => exact l5 i o ho
    exact ⟨rfl, ho, hl, by cases hl; rfl⟩

theorem walk_loose (n : Nat) (grow : Nat → Nat) :
    Walk false grow (fun a => n ≤ a.mem.next ∧ Loose n a.obj)
      fun a b => Keeps n a.mem b.mem ∧ b.obj.ty = a.obj.ty ∧ b.obj.m = a.obj.m where
  refl _ h := ⟨keeps_refl h.1, rfl, rfl⟩
  trans _ _ _ h h' := ⟨keeps_trans h.1 h'.1, h'.2.1.trans h.2.1, h'.2.2.trans h.2.2⟩
  step _ c h := after_imp (after_and (loose_raw grow h.1 h.2 c) (raw_static c)) fun _ h =>
    ⟨⟨h.1.1.1, h.1.2⟩, h.1.1, h.2.1, h.2.2.2⟩
  kid a i k h hk := by
    obtain ⟨h1, -, h2, -⟩ := loose_kid h.2 hk
    exact ⟨by rw [h1]; exact h.1, h2⟩
  back a i k k' h hk h' hr := by
    obtain ⟨h1, h2, h3, h4⟩ := loose_kid h.2 hk
    have := loose_putBack (k' := k') h.2 h2 h4 (by rw [← h1]; exact hr.1) h'.2 hr.2.1 hr.2.2
    exact ⟨⟨this.1.1, this.2⟩, this.1, (putBack_static a i k').1, (putBack_static a i k').2.2.1⟩

/-- A finished assembler takes no node. -/
theorem shut_nd (repr : Bool) (grow : Nat → Nat) {a : St} (hm : a.mark = .value)
    (hb : parts a.obj.ty ≠ [] → a.obj.ph = .finished) : ∀ n : Nd,
    (∃ e, assignNd repr grow n a = .err e a) ∨ assignNd repr grow n a = .panic ∨ assignNd repr grow n a = .noHandle
  | .null => by
    unfold assignNd assignNull
    rw [hm]
    exact Or.inr (Or.inl rfl)
  | .own t v n => by
    unfold assignNd
    split
    · obtain ⟨μ, mk, t', w, m, g, b, ph, s, f, cm, kids⟩ := a
      replace hm : mk = .value := hm
      subst hm
      unfold assignSelf
      simp only
      split
      · exact Or.inr (Or.inr rfl)
      · cases t'.shape <;> exact Or.inr (Or.inl rfl)
    · exact shut_nd repr grow hm hb n
  | .text b => by
    unfold assignNd
    split
    · rename_i hs
      obtain ⟨μ, mk, t', w, m, g, b, ph, s, f, cm, kids⟩ := a
      replace hm : mk = .value := hm
      subst hm
      replace hs : t'.shape = .text := hs
      unfold assignString
      simp only [hs]
      exact Or.inr (Or.inl (if_pos trivial))
    · exact Or.inl ⟨_, rfl⟩
  | .link l => by
    unfold assignNd
    split
    · rename_i hs
      obtain ⟨μ, mk, t', w, m, g, b, ph, s, f, cm, kids⟩ := a
      replace hm : mk = .value := hm
      subst hm
      replace hs : t'.shape = .link := hs
      unfold assignLink
      simp only [hs]
      exact Or.inr (Or.inl (if_pos trivial))
    · exact Or.inl ⟨_, rfl⟩
  | .other => by
    unfold assignNd
    exact Or.inl ⟨_, rfl⟩
  | .list ns => by
    unfold assignNd
    split
    · rename_i e hs
      have hph := hb (parts_ne_list hs)
      have hr : ready repr a = none := by unfold ready; rw [hph]
      right; left
      cases ns with
      | nil => unfold assignNds finish; rw [hs]; simp only [hr]
      | cons n r => unfold assignNds assembleValue; rw [hs]; simp only [hr]; rfl
    · exact Or.inl ⟨_, rfl⟩
  | .map es => by
    unfold assignNd
    split
    · rename_i fs hs
      have hph := hb (parts_ne_struct hs)
      have hr : ready repr a = none := by unfold ready; rw [hph]
      right; left
      cases es with
      | nil => unfold assignEnts finish; rw [hs]; simp only [hr]
      | cons k n r => unfold assignEnts assembleKey; rw [hs]; simp only [hr]; rfl
    · exact Or.inl ⟨_, rfl⟩

theorem after_assign {n : Nd} {a : St} {P : St → Prop} (h : After (assignNd repr grow n a) P) :
    After (assign repr grow n a) P := by
  unfold assign
  split
  · exact h
  · exact trivial

theorem tame_assign (grow : Nat → Nat) (n : Nd) : Tame true (assign false grow n) where
  loose m a hn h := after_assign (after_imp (walk_nd (walk_loose m grow) n a ⟨hn, h⟩) fun _ h => ⟨h.2.1, h.1.2⟩)
  static a := after_assign (after_imp (walk_nd (walk_static false grow) n a trivial) fun _ h => h.2)
  shut a hm hb := by
    unfold assign
    split
    · exact shut_nd false grow hm (fun hn => hb hn (Or.inl rfl)) n
    · exact Or.inr (Or.inr rfl)

theorem assignAt_path (repr : Bool) (grow : Nat → Nat) (n : Nd) (p : List Nat) (a : St) :
    assignAt repr grow n p a = atPath (assign repr grow n) p a := by
  induction p generalizing a with
  | nil => rfl
  | cons i p ih =>
    unfold assignAt atPath withKid
    cases kid a i with
    | none => rfl
    | some k =>
      simp only [ih]
      cases atPath (assign repr grow n) p k <;> rfl

theorem still_deed {n : Nat} {μ : Mem} {p : Ptr} {t : T} {a : St} (grow : Nat → Nat) (h : Still true n μ p t a)
    (q : List Nat) (d : Deed) : After (deedAt false grow q d a) (Still true n μ p t) := by
  cases d with
  | call c =>
    show After (callAt false grow q c a) _
    rw [callAt_path]
    exact still_path (tame_calls true grow c) h q
  | node x =>
    show After (assignAt false grow x q a) _
    rw [assignAt_path]
    exact still_path (tame_assign grow x) h q

/-! ## The views of what has no structs in it -/

theorem walk_noStruct (repr : Bool) (grow : Nat → Nat) :
    Walk repr grow (fun a => NoStruct a.obj) fun _ _ => True where
  refl _ _ := trivial
  trans _ _ _ _ _ := trivial
  step _ c h := after_imp (noStruct_raw h c) fun _ h => ⟨h, trivial⟩
  kid _ _ _ h hk := noStruct_kid h hk
  back _ _ _ _ h _ h' _ := ⟨noStruct_putBack h h', trivial⟩

theorem raw_repr {grow : Nat → Nat} {a : St} (h : NoStruct a.obj) (c : Call) :
    rawCall true grow a c = rawCall false grow a c := by
  have hn := noStruct_ty h
  unfold rawCall
  cases c <;> try rfl
  · simp only [assembleEntry, hn]
  · simp only [assembleKey, hn]
  · simp only [assembleValue]
    rw [ready_repr hn]
  · simp only [finish]
    rw [ready_repr hn]

theorem andThen_congr {o : Out} {f g : St → Out} {P : St → Prop} (h : After o P) (hf : ∀ a, P a → f a = g a) :
    o.andThen f = o.andThen g := by
  cases o with
  | ok a => exact hf a h
  | err e a => rfl
  | panic => rfl
  | noHandle => rfl

theorem withKid_congr {a : St} {i : Nat} {f g : St → Out} (h : NoStruct a.obj)
    (hf : ∀ a, NoStruct a.obj → f a = g a) : withKid f a i = withKid g a i := by
  unfold withKid
  cases hk : kid a i with
  | none => rfl
  | some k => simp only [hf k (noStruct_kid h hk)]

mutual

theorem nd_repr : ∀ (n : Nd) (a : St), NoStruct a.obj → assignNd true grow n a = assignNd false grow n a
  | .null, a, _ => by unfold assignNd; rfl
  | .own t v n, a, h => by
    unfold assignNd
    rw [nd_repr n a h]
  | .text b, a, _ => by unfold assignNd; rfl
  | .link l, a, _ => by unfold assignNd; rfl
  | .other, a, _ => by unfold assignNd; rfl
  | .list ns, a, h => by
    unfold assignNd
    rw [nds_repr ns a h]
  | .map es, a, h => by
    unfold assignNd
    split
    · rename_i fs hs; exact absurd hs (noStruct_ty h fs)
    · rfl

theorem nds_repr : ∀ (ns : Nds) (a : St), NoStruct a.obj → assignNds true grow ns a = assignNds false grow ns a
  | .nil, a, h => by
    unfold assignNds
    exact raw_repr (grow := id) h .finish
  | .cons n r, a, h => by
    unfold assignNds
    have h1 : assembleValue true grow a = assembleValue false grow a := raw_repr h .assembleValue
    have h2 := (walk_noStruct false grow).step a .assembleValue h
    have h3 : (assembleValue false grow a).andThen (fun a => withKid (assignNd true grow n) a 0) =
        (assembleValue false grow a).andThen fun a => withKid (assignNd false grow n) a 0 :=
      andThen_congr h2 fun b hb => withKid_congr hb.1 fun c hc => nd_repr n c hc
    rw [h1, h3]
    exact andThen_congr (walk_then (a := a) (walk_noStruct false grow) h2 fun b hb =>
      walk_kid (walk_noStruct false grow) (fun c hc => walk_nd (walk_noStruct false grow) n c hc) b 0 hb)
      fun b hb => nds_repr r b hb.1

end

theorem deed_repr {a : St} (h : NoStruct a.obj) (p : List Nat) (d : Deed) :
    deedAt true grow p d a = deedAt false grow p d a ∧ After (deedAt false grow p d a) fun a' => NoStruct a'.obj := by
  cases d with
  | call c => exact noStruct_callAt h p c
  | node n =>
    show assignAt true grow n p a = assignAt false grow n p a ∧ After (assignAt false grow n p a) _
    rw [assignAt_path, assignAt_path]
    refine noStruct_path (fun a h => ?_) (fun a h => ?_) h p
    · unfold assign
      rw [nd_repr n a h]
    · exact after_assign (after_imp (walk_nd (walk_noStruct false grow) n a h) fun _ h => h.1)

end Verif.Handles
