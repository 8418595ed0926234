import Verif.Model.Sharing
import Verif.Proofs.TreeHeap

/-!
# Builders that share memory: the invariant
-/

namespace Verif

variable {M L C V : Type}

/-- What has to be known about a kind of builder: `sep m a b` says that builder `a`
writes to nothing that builder `b` can see. -/
structure Separation (K : BuilderKind M L C V) where
  good : M → Prop
  ok : M → L → Prop
  sep : M → L → L → Prop
  init_good : good K.init
  fresh_law : ∀ {m t}, good m → good (K.fresh t m).1 ∧ ok (K.fresh t m).1 (K.fresh t m).2 ∧
    (∀ b, ok m b → ok (K.fresh t m).1 b ∧ K.view (K.fresh t m).1 b = K.view m b ∧
      sep (K.fresh t m).1 (K.fresh t m).2 b ∧ sep (K.fresh t m).1 b (K.fresh t m).2 ∧
      ∀ b', ok m b' → sep m b b' → sep (K.fresh t m).1 b b')
  free_done : ∀ {a c}, K.free a c = true → K.done a = false
  step_law : ∀ {m a arg c m' a'}, good m → ok m a → K.free a c = true →
    (∀ b0, arg = some b0 → ok m b0 ∧ K.done b0 = true ∧ sep m a b0) →
    K.step m a arg c = some (m', a') →
    good m' ∧ ok m' a' ∧ ∀ b, ok m b → sep m a b →
      ok m' b ∧ K.view m' b = K.view m b ∧ (K.done a' = false → sep m' a' b) ∧
      (sep m b a → (∀ b0, arg = some b0 → sep m b b0) → sep m' b a') ∧
      ∀ b', ok m b' → sep m a b' → sep m b b' → sep m' b b'

namespace Separation

variable {K : BuilderKind M L C V} (S : Separation K)

/-- Builders that do not hold a value share nothing they write to. -/
structure Inv (w : World M L) : Prop where
  good : S.good w.mem
  ok : ∀ (i : Nat) (a : L), w.asms[i]? = some a → S.ok w.mem a
  sep : ∀ (i j : Nat) (a b : L), i ≠ j → w.asms[i]? = some a → w.asms[j]? = some b → K.done a = false → S.sep w.mem a b

theorem start_inv : S.Inv K.start :=
  ⟨S.init_good, by intro i a h; simp [BuilderKind.start] at h,
    by intro i j a b _ h; simp [BuilderKind.start] at h⟩

/-- One allowed action keeps the invariant and every built node. -/
theorem act_inv {w w' : World M L} {x : Act C} (hi : S.Inv w) (ha : K.allowed w x = true)
    (h : K.act w x = some w') :
    S.Inv w' ∧ ∀ (j : Nat) (v : V), K.node w j = some v → K.node w' j = some v := by
  cases x with
  | new t =>
    simp only [BuilderKind.act, Option.some.injEq] at h
    subst h
    obtain ⟨g, o, f⟩ := S.fresh_law (t := t) hi.good
    refine ⟨⟨g, ?_, ?_⟩, ?_⟩
    · intro i a hia
      rw [List.getElem?_append] at hia
      split at hia
      · exact (f a (hi.ok i a hia)).1
      · rename_i hlt
        have : i - w.asms.length = 0 := by
          by_cases h0 : i - w.asms.length = 0
          · exact h0
          · rw [List.getElem?_eq_none (by simp; omega)] at hia; simp at hia
        rw [this] at hia
        simp only [List.getElem?_cons_zero, Option.some.injEq] at hia
        subst hia; exact o
    · intro i j a b hij hia hjb hd
      have key : ∀ (n : Nat) (c : L), (w.asms ++ [(K.fresh t w.mem).2])[n]? = some c →
          w.asms[n]? = some c ∨ (n = w.asms.length ∧ c = (K.fresh t w.mem).2) := by
        intro n c hn
        rw [List.getElem?_append] at hn
        split at hn
        · exact .inl hn
        · right
          have h0 : n - w.asms.length = 0 := by
            by_cases h0 : n - w.asms.length = 0
            · exact h0
            · rw [List.getElem?_eq_none (by simp; omega)] at hn; simp at hn
          rw [h0] at hn
          simp only [List.getElem?_cons_zero, Option.some.injEq] at hn
          exact ⟨by omega, hn.symm⟩
      rcases key i a hia with h1 | ⟨h1, h1'⟩ <;> rcases key j b hjb with h2 | ⟨h2, h2'⟩
      · exact (f a (hi.ok i a h1)).2.2.2.2 b (hi.ok j b h2) (hi.sep i j a b hij h1 h2 hd)
      · subst h2'; exact (f a (hi.ok i a h1)).2.2.2.1
      · subst h1'; exact (f b (hi.ok j b h2)).2.2.1
      · omega
    · intro j v hv
      unfold BuilderKind.node at hv ⊢
      cases hj : w.asms[j]? with
      | none => rw [hj] at hv; simp at hv
      | some b =>
        have hlt : j < w.asms.length := (List.getElem?_eq_some_iff.1 hj).1
        rw [List.getElem?_append_left hlt, hj]
        rw [hj] at hv
        simp only [Option.bind_some] at hv ⊢
        rw [(f b (hi.ok j b hj)).2.1]
        exact hv
  | call i arg c =>
    simp only [BuilderKind.act, Option.bind_eq_some_iff, Option.map_eq_some_iff] at h
    obtain ⟨a, hia, ob, harg, ⟨m', a'⟩, hs, rfl⟩ := h
    have hf : K.free a c = true := by
      simpa [BuilderKind.allowed, hia] using ha
    have hnd := S.free_done hf
    have hob : ∀ b0, ob = some b0 → ∃ j, j ≠ i ∧ w.asms[j]? = some b0 ∧ K.done b0 = true := by
      intro b0 hb
      subst hb
      cases arg with
      | none => simp [BuilderKind.argument] at harg
      | some j =>
        simp only [BuilderKind.argument, Option.bind_eq_some_iff] at harg
        obtain ⟨b, hj, hb⟩ := harg
        split at hb
        · rename_i hd
          simp only [Option.some.injEq] at hb
          subst hb
          refine ⟨j, ?_, hj, hd⟩
          rintro rfl
          rw [hia] at hj
          cases hj
          rw [hnd] at hd
          simp at hd
        · simp at hb
    obtain ⟨g, o, f⟩ := S.step_law hi.good (hi.ok i a hia) hf (by
      intro b0 hb
      obtain ⟨j, hne, hj, hd⟩ := hob b0 hb
      exact ⟨hi.ok j b0 hj, hd, hi.sep i j a b0 (Ne.symm hne) hia hj hnd⟩) hs
    have hlt : i < w.asms.length := (List.getElem?_eq_some_iff.1 hia).1
    have hsep : ∀ (j : Nat) (b : L), j ≠ i → w.asms[j]? = some b → S.sep w.mem a b := fun j b hne hj =>
      hi.sep i j a b (Ne.symm hne) hia hj hnd
    refine ⟨⟨g, ?_, ?_⟩, ?_⟩
    · intro j b hjb
      by_cases hne : i = j
      · subst hne
        rw [List.getElem?_set_self hlt] at hjb
        cases hjb; exact o
      · rw [List.getElem?_set_ne hne] at hjb
        exact (f b (hi.ok j b hjb) (hsep j b (Ne.symm hne) hjb)).1
    · intro j k b d hjk hjb hkd hdone
      by_cases h1 : i = j
      · subst h1
        rw [List.getElem?_set_self hlt] at hjb
        rw [List.getElem?_set_ne hjk] at hkd
        cases hjb
        exact (f d (hi.ok k d hkd) (hsep k d (Ne.symm hjk) hkd)).2.2.1 hdone
      · rw [List.getElem?_set_ne h1] at hjb
        have hb := f b (hi.ok j b hjb) (hsep j b (Ne.symm h1) hjb)
        by_cases h2 : i = k
        · subst h2
          rw [List.getElem?_set_self hlt] at hkd
          cases hkd
          refine hb.2.2.2.1 (hi.sep j i b a hjk hjb hia hdone) ?_
          intro b0 h0
          obtain ⟨j0, -, hj0, hd0⟩ := hob b0 h0
          refine hi.sep j j0 b b0 ?_ hjb hj0 hdone
          rintro rfl
          rw [hjb] at hj0
          cases hj0
          rw [hdone] at hd0
          simp at hd0
        · rw [List.getElem?_set_ne h2] at hkd
          exact hb.2.2.2.2 d (hi.ok k d hkd) (hsep k d (Ne.symm h2) hkd)
            (hi.sep j k b d hjk hjb hkd hdone)
    · intro j v hv
      unfold BuilderKind.node at hv ⊢
      cases hj : w.asms[j]? with
      | none => rw [hj] at hv; simp at hv
      | some b =>
        rw [hj] at hv
        have hne : i ≠ j := by
          rintro rfl
          rw [hia] at hj
          cases hj
          simp [hnd] at hv
        simp only [List.getElem?_set_ne hne, hj, Option.bind_some] at hv ⊢
        rw [(f b (hi.ok j b hj) (hsep j b (Ne.symm hne) hj)).2.1]
        exact hv

/-- So do allowed actions in a row. -/
theorem run_inv : ∀ {xs : List (Act C)} {w w' : World M L}, S.Inv w → K.Allowed xs w →
    K.run xs w = some w' →
    S.Inv w' ∧ ∀ (j : Nat) (v : V), K.node w j = some v → K.node w' j = some v
  | [], w, w', hi, _, h => by
    simp only [BuilderKind.run, Option.some.injEq] at h
    subst h
    exact ⟨hi, fun _ _ h => h⟩
  | x :: r, w, w', hi, ha, h => by
    simp only [BuilderKind.run, Option.bind_eq_some_iff] at h
    obtain ⟨w1, h1, h2⟩ := h
    obtain ⟨i1, k1⟩ := S.act_inv hi ha.1 h1
    obtain ⟨i2, k2⟩ := run_inv i1 (ha.2 w1 h1) h2
    exact ⟨i2, fun j v hv => k2 j v (k1 j v hv)⟩

end Separation

/-! ## Lists -/

namespace ListAsm

variable {α : Type}

def Ok (h : List (List α)) (a : ListAsm) : Prop :=
  (∃ l, h[a.arr]? = some l ∧ a.len ≤ l.length) ∧ ∀ p, a.va = some p → p.arr < h.length

def Sep (a b : ListAsm) : Prop :=
  (a.arr ≠ 0 → b.arr ≠ a.arr) ∧ ∀ p, a.va = some p → p.arr ≠ 0 → b.arr ≠ p.arr

theorem ready_some {a a' : ListAsm} (h : a.ready = some a') :
    a'.arr = a.arr ∧ a'.len = a.len ∧ a'.m = a.m ∧ (a'.va = none ∨ a'.va = a.va) := by
  unfold ready at h
  split at h
  · cases h; exact ⟨rfl, rfl, rfl, .inr rfl⟩
  · split at h
    · cases h; exact ⟨rfl, rfl, rfl, .inl rfl⟩
    · simp at h
  · simp at h

theorem frame {h h' : List (List α)} {b : ListAsm} (ho : Ok h b) (hl : h.length ≤ h'.length)
    (hb : h'[b.arr]? = h[b.arr]?) :
    Ok h' b ∧ (h'[b.arr]?.getD []).take b.len = (h[b.arr]?.getD []).take b.len := by
  rw [hb]
  refine ⟨⟨?_, fun p hp => Nat.lt_of_lt_of_le (ho.2 p hp) hl⟩, rfl⟩
  rw [hb]; exact ho.1

theorem Ok.lt {h : List (List α)} {b : ListAsm} (ho : Ok h b) : b.arr < h.length := by
  obtain ⟨⟨l, hl, -⟩, -⟩ := ho
  exact (List.getElem?_eq_some_iff.1 hl).1

end ListAsm

/-- Lists. -/
def listSeparation {α : Type} (room : Nat) (zero : α) : Separation (listKind room zero) where
  good h := h[0]? = some []
  ok := ListAsm.Ok
  sep _ := ListAsm.Sep
  init_good := rfl
  fresh_law := by
    intro h t hg
    refine ⟨hg, ⟨⟨[], hg, Nat.le_refl _⟩, by intro p hp; cases hp⟩, ?_⟩
    intro b hb
    refine ⟨hb, rfl, ⟨fun h0 => absurd rfl h0, by intro p hp; cases hp⟩, ⟨fun h0 => Ne.symm h0, fun p _ h0 => Ne.symm h0⟩, fun b' _ h => h⟩
  free_done := by
    intro a c h
    simpa [listKind] using h
  step_law := by
    intro h a arg c h' a' hg ho hf harg hs
    have same : ∀ {a1 : ListAsm}, (h, a1) = (h', a') → a1.arr = a.arr → a1.va = a.va →
        a1.len = a.len → h'[0]? = some [] ∧ ListAsm.Ok h' a' ∧ ∀ b, ListAsm.Ok h b → ListAsm.Sep a b →
        ListAsm.Ok h' b ∧ (listKind room zero).view h' b = (listKind room zero).view h b ∧
        ((listKind room zero).done a' = false → ListAsm.Sep a' b) ∧
        (ListAsm.Sep b a → (∀ b0, arg = some b0 → ListAsm.Sep b b0) → ListAsm.Sep b a') ∧
        ∀ b', ListAsm.Ok h b' → ListAsm.Sep a b' → ListAsm.Sep b b' → ListAsm.Sep b b' := by
      intro a1 he e1 e2 e3
      cases he
      refine ⟨hg, ?_, ?_⟩
      · unfold ListAsm.Ok at ho ⊢; rw [e1, e2, e3]; exact ho
      · intro b hb hab
        refine ⟨hb, rfl, fun _ => ?_, fun h1 _ => ?_, fun _ _ _ h1 => h1⟩
        · unfold ListAsm.Sep at hab ⊢; rw [e1, e2]; exact hab
        · unfold ListAsm.Sep at h1 ⊢; rw [e1]; exact h1
    cases c with
    | assignOwn =>
      simp only [listKind, ListAsm.step] at hs
      split at hs
      · rename_i b0 hm
        cases hs
        obtain ⟨o0, -, s0⟩ := harg b0 rfl
        refine ⟨hg, ⟨o0.1, ho.2⟩, ?_⟩
        intro b hb hab
        refine ⟨hb, rfl, by simp [listKind], ?_, fun _ _ _ h1 => h1⟩
        intro _ h2
        exact h2 b0 rfl
      · simp at hs
    | beginList hint =>
      simp only [listKind, ListAsm.step] at hs
      split at hs
      · split at hs
        · exact same (Option.some.inj hs) rfl rfl rfl
        · cases hs
          have h0 : 0 < h.length := (List.getElem?_eq_some_iff.1 hg).1
          refine ⟨?_, ⟨⟨_, List.getElem?_concat_length, by simp⟩, ?_⟩, ?_⟩
          · rw [List.getElem?_append_left h0]; exact hg
          · intro p hp
            have := ho.2 p hp
            simp only [List.length_append]
            omega
          · intro b hb hab
            have hlt := hb.lt
            obtain ⟨f1, f2⟩ := ListAsm.frame (h' := h ++ [List.replicate hint.toNat zero]) hb
              (by simp) (List.getElem?_append_left hlt)
            refine ⟨f1, f2, fun _ => ⟨fun _ => by simp only; omega, hab.2⟩, ?_, fun _ _ _ h1 => h1⟩
            intro h1 _
            refine ⟨fun _ => ?_, fun p hp _ => ?_⟩
            · simp only; omega
            · have := hb.2 p hp
              simp only; omega
      · simp at hs
    | assembleValue =>
      simp only [listKind, ListAsm.step, Option.map_eq_some_iff] at hs
      obtain ⟨a1, hr, he⟩ := hs
      obtain ⟨r1, r2, r3, r4⟩ := ListAsm.ready_some hr
      obtain ⟨⟨l, hl, hle⟩, hva⟩ := ho
      have h0 : 0 < h.length := (List.getElem?_eq_some_iff.1 hg).1
      unfold ListAsm.append at he
      simp only [r1, r2, hl, Option.getD_some] at he
      by_cases hlt : a.len < l.length
      · rw [if_pos hlt] at he
        cases he
        have hne : a.arr ≠ 0 := by
          intro h00
          rw [h00, hg] at hl
          cases hl
          simp at hlt
        have hal : a.arr < h.length := (List.getElem?_eq_some_iff.1 hl).1
        refine ⟨?_, ⟨⟨l.set a.len zero, ?_, ?_⟩, ?_⟩, ?_⟩
        · rw [List.getElem?_set_ne hne]; exact hg
        · simp only; rw [List.getElem?_set_self hal]
        · simp only [List.length_set]; omega
        · intro p hp
          cases hp
          simpa using hal
        · intro b hb hab
          have hba := hab.1 hne
          obtain ⟨f1, f2⟩ := ListAsm.frame (h' := h.set a.arr (l.set a.len zero)) hb
            (by simp) (List.getElem?_set_ne (Ne.symm hba))
          refine ⟨f1, f2, fun _ => ⟨fun _ => ?_, ?_⟩, fun h1 _ => ⟨?_, ?_⟩, fun _ _ _ h1 => h1⟩
          · exact hba
          · intro p hp _
            cases hp
            exact hba
          · exact h1.1
          · exact h1.2
      · rw [if_neg hlt] at he
        cases he
        refine ⟨?_, ⟨⟨_, List.getElem?_concat_length, ?_⟩, ?_⟩, ?_⟩
        · rw [List.getElem?_append_left h0]; exact hg
        · simp only [List.length_append, List.length_take, List.length_cons]; omega
        · intro p hp
          cases hp
          simp
        · intro b hb hab
          have hlt := hb.lt
          obtain ⟨f1, f2⟩ := ListAsm.frame (h' := h ++ [l.take a.len ++ zero :: List.replicate room zero]) hb
            (by simp) (List.getElem?_append_left hlt)
          refine ⟨f1, f2, fun _ => ⟨fun _ => ?_, ?_⟩, fun h1 _ => ⟨?_, ?_⟩, fun _ _ _ h1 => h1⟩
          · simp only; omega
          · intro p hp _
            cases hp
            simp only; omega
          · intro _; simp only; omega
          · intro p hp _
            have := hb.2 p hp
            simp only; omega
    | valueBegin =>
      simp only [listKind, ListAsm.step] at hs
      split at hs
      · exact same (Option.some.inj hs) rfl rfl rfl
      · simp at hs
    | valueWrite x =>
      simp only [listKind, ListAsm.step] at hs
      split at hs
      · simp at hs
      · simp at hs
      · split at hs
        · exact same (Option.some.inj hs) rfl rfl rfl
        · rename_i p hp
          cases hs
          have hpl := ho.2 p hp
          obtain ⟨⟨l, hl, hle⟩, hva⟩ := ho
          have hget : ∀ i l, h[i]? = some l → ∃ l', (h.modify p.arr (·.set p.idx x))[i]? = some l' ∧
              l'.length = l.length ∧ (i = p.arr ∧ l ≠ [] ∨ l' = l) := by
            intro i l hi
            rw [List.getElem?_modify, hi]
            by_cases hip : p.arr = i
            · simp only [Option.map_eq_map, Option.map_some, if_pos hip]
              refine ⟨_, rfl, by simp, ?_⟩
              by_cases hl0 : l = []
              · right; subst hl0; simp
              · exact .inl ⟨hip.symm, hl0⟩
            · simp only [Option.map_eq_map, Option.map_some, if_neg hip]
              exact ⟨l, rfl, rfl, .inr rfl⟩
          refine ⟨?_, ⟨?_, ?_⟩, ?_⟩
          · obtain ⟨l', h1, h2, h3⟩ := hget 0 [] hg
            rw [h1]
            cases l' with
            | nil => rfl
            | cons => simp at h2
          · obtain ⟨l', h1, h2, -⟩ := hget a.arr l hl
            exact ⟨l', h1, by omega⟩
          · simpa using hva
          · intro b hb hab
            obtain ⟨lb, hlb, hleb⟩ := hb.1
            obtain ⟨l', h1, h2, h3⟩ := hget b.arr lb hlb
            have heq : (h.modify p.arr (·.set p.idx x))[b.arr]? = h[b.arr]? := by
              rcases h3 with ⟨h3, h4⟩ | h3
              · have hp0 : p.arr ≠ 0 := by
                  intro h00
                  rw [h3, h00, hg] at hlb
                  cases hlb
                  exact h4 rfl
                exact absurd h3 (hab.2 p hp hp0)
              · rw [h1, h3, hlb]
            obtain ⟨f1, f2⟩ := ListAsm.frame (h' := h.modify p.arr (·.set p.idx x)) hb (by simp) heq
            exact ⟨f1, f2, fun _ => hab, fun h1 _ => h1, fun _ _ _ h1 => h1⟩
    | valueDone =>
      simp only [listKind, ListAsm.step] at hs
      split at hs
      · simp at hs
      · simp at hs
      · exact same (Option.some.inj hs) rfl rfl rfl
    | finish =>
      simp only [listKind, ListAsm.step, Option.map_eq_some_iff] at hs
      obtain ⟨a1, hr, he⟩ := hs
      obtain ⟨r1, r2, r3, r4⟩ := ListAsm.ready_some hr
      cases he
      refine ⟨hg, ⟨by simp only [r1, r2]; exact ho.1, ?_⟩, ?_⟩
      · intro p hp
        rcases r4 with r4 | r4
        · simp [r4] at hp
        · exact ho.2 p (by rw [← r4]; exact hp)
      · intro b hb hab
        refine ⟨hb, rfl, by simp [listKind], fun h1 _ => ?_, fun _ _ _ h1 => h1⟩
        unfold ListAsm.Sep at h1 ⊢
        simp only [r1]; exact h1

/-! ## Trees -/

namespace TreeAsm

/-- The arrays a tree assembler may write to. -/
def Tgt (s : TreeAsm) (i : Nat) : Prop :=
  i = 0 ∨ i = s.arr ∨ (∃ p, s.ka = some p ∧ i = p.arr) ∨ ∃ p, s.va = some p ∧ i = p.arr

/-- All its references are to memory that exists. -/
structure In (s : TreeAsm) : Prop where
  zero : s.heap[0]? = some []
  bound : s.Bound
  ka : ∀ p, s.ka = some p → p.arr < s.heap.length
  va : ∀ p, s.va = some p → p.arr < s.heap.length
  ptr : ∀ q ∈ s.map.getD [], q.2.arr < s.heap.length

theorem In.arr {s : TreeAsm} (h : s.In) : s.arr < s.heap.length := h.bound.lt

/-- `t` is an array the assembler could write to before, or a new one. -/
def Mine (s s' : TreeAsm) (t : Nat) : Prop :=
  (s.Tgt t ∨ s.heap.length ≤ t) ∧ t < s'.heap.length

/-- What a call can change. -/
structure Eff (s s' : TreeAsm) : Prop where
  len : s.heap.length ≤ s'.heap.length
  zero : s'.heap[0]? = some []
  frame : ∀ i, i < s.heap.length → (i = 0 ∨ ¬ s.Tgt i) → s'.heap[i]? = s.heap[i]?
  bound : s'.Bound
  arr : Mine s s' s'.arr
  ka : ∀ p, s'.ka = some p → Mine s s' p.arr
  va : ∀ p, s'.va = some p → Mine s s' p.arr
  ptr : ∀ q ∈ s'.map.getD [], q ∈ s.map.getD [] ∨ Mine s s' q.2.arr

theorem Eff.inn {s s' : TreeAsm} (hi : s.In) (h : Eff s s') : s'.In :=
  ⟨h.zero, h.bound, fun p hp => (h.ka p hp).2, fun p hp => (h.va p hp).2, by
    intro q hq
    rcases h.ptr q hq with h1 | h1
    · exact Nat.lt_of_lt_of_le (hi.ptr q h1) h.len
    · exact h1.2⟩

/-- A change of fields that keeps the memory. -/
theorem eff_same {s s' : TreeAsm} (hi : s.In) (hh : s'.heap = s.heap) (ha : s'.arr = s.arr)
    (hn : s'.len = s.len)
    (hk : s'.ka = none ∨ s'.ka = s.ka ∨ s'.ka = some s.last)
    (hv : s'.va = none ∨ s'.va = s.va ∨ s'.va = some s.last)
    (hm : ∀ q ∈ s'.map.getD [], q ∈ s.map.getD [] ∨ q.2 = s.last) : Eff s s' := by
  have hl : Mine s s' s.last.arr := ⟨.inl (.inr (.inl rfl)), by rw [hh]; exact hi.arr⟩
  refine ⟨by rw [hh]; exact Nat.le_refl _, by rw [hh]; exact hi.zero, fun i _ _ => by rw [hh],
    by unfold Bound; rw [hh, ha, hn]; exact hi.bound, ?_, ?_, ?_, ?_⟩
  · rw [ha]; exact hl
  · intro p hp
    rcases hk with h | h | h
    · rw [h] at hp; cases hp
    · rw [h] at hp
      exact ⟨.inl (.inr (.inr (.inl ⟨p, hp, rfl⟩))), by rw [hh]; exact hi.ka p hp⟩
    · rw [h] at hp; cases hp; exact hl
  · intro p hp
    rcases hv with h | h | h
    · rw [h] at hp; cases hp
    · rw [h] at hp
      exact ⟨.inl (.inr (.inr (.inr ⟨p, hp, rfl⟩))), by rw [hh]; exact hi.va p hp⟩
    · rw [h] at hp; cases hp; exact hl
  · intro q hq
    rcases hm q hq with h | h
    · exact .inl h
    · right; rw [h]; exact hl

theorem eff_store {s : TreeAsm} (hi : s.In) {p : Ptr} (hp : s.ka = some p ∨ s.va = some p)
    (f : Row → Row) : Eff s (s.store p f) := by
  have hlen : (s.store p f).heap.length = s.heap.length := by simp [store]
  have ht : s.Tgt p.arr := by
    rcases hp with h | h
    · exact .inr (.inr (.inl ⟨p, h, rfl⟩))
    · exact .inr (.inr (.inr ⟨p, h, rfl⟩))
  have hz : (s.store p f).heap[0]? = some [] := by
    simp only [store, List.getElem?_modify, hi.zero]
    by_cases h0 : p.arr = 0
    · simp [h0]
    · simp [h0]
  refine ⟨by rw [hlen]; exact Nat.le_refl _, hz, ?_, store_bound hi.bound p f, ?_, ?_, ?_, fun q hq => .inl hq⟩
  · intro i hil h
    rcases h with rfl | h
    · rw [hz, hi.zero]
    · have hne : p.arr ≠ i := by rintro rfl; exact h ht
      simp only [store, List.getElem?_modify, if_neg hne]
      cases s.heap[i]? <;> rfl
  · exact ⟨.inl (.inr (.inl rfl)), by rw [hlen]; exact hi.arr⟩
  · intro q hq
    exact ⟨.inl (.inr (.inr (.inl ⟨q, hq, rfl⟩))), by rw [hlen]; exact hi.ka q hq⟩
  · intro q hq
    exact ⟨.inl (.inr (.inr (.inr ⟨q, hq, rfl⟩))), by rw [hlen]; exact hi.va q hq⟩

theorem eff_append (pol : TreeAsm → Nat) {s : TreeAsm} (hi : s.In) (r : Row) :
    Eff s (s.append pol r) := by
  have hbd := append_bound pol hi.bound r
  unfold append at hbd ⊢
  simp only at hbd ⊢
  by_cases hlt : s.len < (s.heap[s.arr]?.getD []).length
  · rw [if_pos hlt] at hbd ⊢
    have hne : s.arr ≠ 0 := by
      intro h0
      rw [h0, hi.zero] at hlt
      simp at hlt
    have mine : ∀ t, s.Tgt t → t < s.heap.length →
        Mine s { s with heap := s.heap.set s.arr ((s.heap[s.arr]?.getD []).set s.len r), len := s.len + 1 } t :=
      fun t h1 h2 => ⟨.inl h1, by simpa using h2⟩
    refine ⟨by simp, ?_, ?_, hbd, ?_, ?_, ?_, fun q hq => .inl hq⟩
    · simp only [List.getElem?_set_ne hne]; exact hi.zero
    · intro i _ h
      have : s.arr ≠ i := by
        rcases h with rfl | h
        · exact hne
        · rintro rfl; exact h (.inr (.inl rfl))
      simp only [List.getElem?_set_ne this]
    · exact mine _ (.inr (.inl rfl)) hi.arr
    · intro p hp; exact mine _ (.inr (.inr (.inl ⟨p, hp, rfl⟩))) (hi.ka p hp)
    · intro p hp; exact mine _ (.inr (.inr (.inr ⟨p, hp, rfl⟩))) (hi.va p hp)
  · rw [if_neg hlt] at hbd ⊢
    have h0 : 0 < s.heap.length := Nat.lt_of_le_of_lt (Nat.zero_le _) hi.arr
    refine ⟨by simp, ?_, ?_, hbd, ?_, ?_, ?_, fun q hq => .inl hq⟩
    · simp only [List.getElem?_append_left h0]; exact hi.zero
    · intro i h _
      simp only [List.getElem?_append_left h]
    · exact ⟨.inr (Nat.le_refl _), by simp⟩
    · intro p hp
      have := hi.ka p hp
      exact ⟨.inl (.inr (.inr (.inl ⟨p, hp, rfl⟩))), by simp; omega⟩
    · intro p hp
      have := hi.va p hp
      exact ⟨.inl (.inr (.inr (.inr ⟨p, hp, rfl⟩))), by simp; omega⟩

/-- Effects compose. -/
theorem Eff.trans {s t u : TreeAsm} (h1 : Eff s t) (h2 : Eff t u) : Eff s u := by
  have tgt : ∀ i, t.Tgt i → s.Tgt i ∨ s.heap.length ≤ i := by
    intro i h
    rcases h with rfl | rfl | ⟨p, hp, rfl⟩ | ⟨p, hp, rfl⟩
    · exact .inl (.inl rfl)
    · exact h1.arr.1
    · exact (h1.ka p hp).1
    · exact (h1.va p hp).1
  have mine : ∀ i, Mine t u i → Mine s u i := by
    intro i h
    refine ⟨?_, h.2⟩
    rcases h.1 with h | h
    · exact tgt i h
    · exact .inr (Nat.le_trans h1.len h)
  refine ⟨Nat.le_trans h1.len h2.len, h2.zero, ?_, h2.bound, mine _ h2.arr, fun p hp => mine _ (h2.ka p hp),
    fun p hp => mine _ (h2.va p hp), ?_⟩
  · intro i hi h
    rw [h2.frame i (Nat.lt_of_lt_of_le hi h1.len), h1.frame i hi h]
    rcases h with h | h
    · exact .inl h
    · right
      intro ht
      rcases tgt i ht with h' | h'
      · exact h h'
      · omega
  · intro q hq
    rcases h2.ptr q hq with h | h
    · rcases h1.ptr q h with h | h
      · exact .inl h
      · exact .inr ⟨h.1, Nat.lt_of_lt_of_le h.2 h2.len⟩
    · exact .inr (mine _ h)

theorem eff_ready {s s' : TreeAsm} (hi : s.In) (h : s.ready = some s') : Eff s s' := by
  unfold ready at h
  split at h
  · cases h; exact eff_same hi rfl rfl rfl (.inr (.inl rfl)) (.inr (.inl rfl)) (fun q hq => .inl hq)
  · unfold tidyValue at h
    split at h
    · cases h
      exact eff_same hi rfl rfl rfl (.inr (.inl rfl)) (.inl rfl) (fun q hq => .inl hq)
    · simp at h
  · simp at h

theorem ready_map {s s' : TreeAsm} (h : s.ready = some s') : s'.map = s.map ∧ s'.m = s.m := by
  unfold ready at h
  split at h
  · cases h; exact ⟨rfl, rfl⟩
  · unfold tidyValue at h
    split at h
    · cases h; exact ⟨rfl, rfl⟩
    · simp at h
  · simp at h

theorem append_map (pol : TreeAsm → Nat) (s : TreeAsm) (r : Row) :
    (s.append pol r).map = s.map ∧ (s.append pol r).m = s.m := by
  unfold append
  simp only
  split <;> exact ⟨rfl, rfl⟩

/-- What a call other than `BeginMap` does. -/
theorem step_eff {pol : TreeAsm → Nat} {s s' : TreeAsm} {c : TreeCall} (hi : s.In)
    (h : s.step pol c = .ok s' ∨ ∃ e, s.step pol c = .err e s') :
    Eff s s' ∧ ((∀ hint, c ≠ .beginMap hint) → s'.map.isSome = s.map.isSome) ∧
      (∀ hint, c = .beginMap hint → s'.map = some []) := by
  cases c with
  | beginMap hint =>
    simp only [step, beginMap] at h
    split at h
    · rcases h with h | ⟨e, h⟩
      · cases h
        have h0 : 0 < s.heap.length := Nat.lt_of_le_of_lt (Nat.zero_le _) hi.arr
        refine ⟨⟨by simp, ?_, ?_, ⟨_, List.getElem?_concat_length, Nat.zero_le _⟩, ⟨.inr (Nat.le_refl _), by simp⟩, ?_, ?_, ?_⟩, ?_, fun _ _ => rfl⟩
        · simp only [List.getElem?_append_left h0]; exact hi.zero
        · intro i h _
          simp only [List.getElem?_append_left h]
        · intro p hp
          have := hi.ka p hp
          exact ⟨.inl (.inr (.inr (.inl ⟨p, hp, rfl⟩))), by simp; omega⟩
        · intro p hp
          have := hi.va p hp
          exact ⟨.inl (.inr (.inr (.inr ⟨p, hp, rfl⟩))), by simp; omega⟩
        · intro q hq; simp at hq
        · intro hc; exact absurd rfl (hc hint)
      · cases h
    · rcases h with h | ⟨e, h⟩ <;> cases h
  | assembleEntry k =>
    refine (fun (x : Eff s s' ∧ s'.map.isSome = s.map.isSome) => ⟨x.1, fun _ => x.2, by intro _ h; cases h⟩) ?_
    simp only [step, assembleEntry] at h
    split at h
    · rcases h with h | ⟨e, h⟩ <;> cases h
    · rename_i s1 hr
      have e1 := eff_ready hi hr
      have m1 := (ready_map hr).1
      split at h
      · rcases h with h | ⟨e, h⟩
        · cases h
        · cases h; exact ⟨e1, by rw [m1]⟩
      · have e2 := e1.trans (eff_append pol (e1.inn hi) (k, Row.zero.2))
        have m2 := (append_map pol s1 (k, Row.zero.2)).1
        revert h e2 m2
        generalize s1.append pol (k, Row.zero.2) = s2
        intro h e2 m2
        have hin := e2.inn hi
        simp only [put] at h
        cases hm : s2.map with
        | none =>
          rw [hm] at h
          rcases h with h | ⟨e, h⟩ <;> cases h
        | some mm =>
          rw [hm] at h
          rcases h with h | ⟨e, h⟩
          · cases h
            refine ⟨e2.trans (eff_same hin rfl rfl rfl (.inr (.inl rfl)) (.inr (.inr rfl)) ?_), ?_⟩
            · intro q hq
              simp only [Option.getD_some, List.mem_cons] at hq
              rcases hq with rfl | hq
              · exact .inr rfl
              · left; rw [hm]; exact hq
            · rw [← m1, ← m2, hm]; rfl
          · cases h
  | assembleKey =>
    refine (fun (x : Eff s s' ∧ s'.map.isSome = s.map.isSome) => ⟨x.1, fun _ => x.2, by intro _ h; cases h⟩) ?_
    simp only [step, assembleKey] at h
    split at h
    · rcases h with h | ⟨e, h⟩ <;> cases h
    · rename_i s1 hr
      have e1 := eff_ready hi hr
      have m1 := (ready_map hr).1
      have e2 := e1.trans (eff_append pol (e1.inn hi) Row.zero)
      have m2 := (append_map pol s1 Row.zero).1
      revert h e2 m2
      generalize s1.append pol Row.zero = s2
      intro h e2 m2
      have hin := e2.inn hi
      rcases h with h | ⟨e, h⟩
      · cases h
        refine ⟨e2.trans (eff_same hin rfl rfl rfl (.inr (.inr rfl)) (.inr (.inl rfl)) (fun q hq => .inl hq)), ?_⟩
        rw [← m1, ← m2]
      · cases h
  | keyAssign k =>
    refine (fun (x : Eff s s' ∧ s'.map.isSome = s.map.isSome) => ⟨x.1, fun _ => x.2, by intro _ h; cases h⟩) ?_
    simp only [step, keyAssign] at h
    split at h
    · rcases h with h | ⟨e, h⟩ <;> cases h
    · rcases h with h | ⟨e, h⟩ <;> cases h
    · split at h
      · rcases h with h | ⟨e, h⟩ <;> cases h
      · rename_i p hp
        rcases h with h | ⟨e, h⟩
        · cases h
          have e1 := eff_store hi (.inl hp) (fun r => (k, r.2))
          exact ⟨e1.trans (eff_same (e1.inn hi) rfl rfl rfl (.inr (.inl rfl)) (.inr (.inl rfl)) (fun q hq => .inl hq)), rfl⟩
        · cases h
  | assembleValue =>
    refine (fun (x : Eff s s' ∧ s'.map.isSome = s.map.isSome) => ⟨x.1, fun _ => x.2, by intro _ h; cases h⟩) ?_
    simp only [step, assembleValue] at h
    split at h
    · split at h
      · split at h
        · rcases h with h | ⟨e, h⟩ <;> cases h
        · rename_i r hr
          simp only [put] at h
          cases hm : s.map with
          | none =>
            rw [hm] at h
            rcases h with h | ⟨e, h⟩ <;> cases h
          | some mm =>
            rw [hm] at h
            rcases h with h | ⟨e, h⟩
            · cases h
              refine ⟨eff_same hi rfl rfl rfl (.inl rfl) (.inr (.inr rfl)) ?_, rfl⟩
              intro q hq
              simp only [Option.getD_some, List.mem_cons] at hq
              rcases hq with rfl | hq
              · exact .inr rfl
              · left; rw [hm]; exact hq
            · cases h
      · rcases h with h | ⟨e, h⟩ <;> cases h
    · rcases h with h | ⟨e, h⟩
      · cases h
        exact ⟨eff_same hi rfl rfl rfl (.inr (.inl rfl)) (.inr (.inl rfl)) (fun q hq => .inl hq), rfl⟩
      · cases h
    · rcases h with h | ⟨e, h⟩ <;> cases h
  | valueBegin =>
    refine (fun (x : Eff s s' ∧ s'.map.isSome = s.map.isSome) => ⟨x.1, fun _ => x.2, by intro _ h; cases h⟩) ?_
    simp only [step, valueBegin] at h
    split at h
    · rcases h with h | ⟨e, h⟩
      · cases h
        exact ⟨eff_same hi rfl rfl rfl (.inr (.inl rfl)) (.inr (.inl rfl)) (fun q hq => .inl hq), rfl⟩
      · cases h
    · rcases h with h | ⟨e, h⟩ <;> cases h
  | valueWrite e0 =>
    refine (fun (x : Eff s s' ∧ s'.map.isSome = s.map.isSome) => ⟨x.1, fun _ => x.2, by intro _ h; cases h⟩) ?_
    simp only [step, valueWrite] at h
    split at h
    · rcases h with h | ⟨e, h⟩ <;> cases h
    · rcases h with h | ⟨e, h⟩ <;> cases h
    · split at h
      · rcases h with h | ⟨e, h⟩
        · cases h
          exact ⟨eff_same hi rfl rfl rfl (.inr (.inl rfl)) (.inr (.inl rfl)) (fun q hq => .inl hq), rfl⟩
        · cases h
      · rename_i p hp
        rcases h with h | ⟨e, h⟩
        · cases h
          exact ⟨eff_store hi (.inr hp) _, rfl⟩
        · cases h
  | valueDone =>
    refine (fun (x : Eff s s' ∧ s'.map.isSome = s.map.isSome) => ⟨x.1, fun _ => x.2, by intro _ h; cases h⟩) ?_
    simp only [step, valueDone] at h
    split at h
    · rcases h with h | ⟨e, h⟩ <;> cases h
    · rcases h with h | ⟨e, h⟩ <;> cases h
    · rcases h with h | ⟨e, h⟩
      · cases h
        exact ⟨eff_same hi rfl rfl rfl (.inr (.inl rfl)) (.inr (.inl rfl)) (fun q hq => .inl hq), rfl⟩
      · cases h
  | finish =>
    refine (fun (x : Eff s s' ∧ s'.map.isSome = s.map.isSome) => ⟨x.1, fun _ => x.2, by intro _ h; cases h⟩) ?_
    simp only [step, finish] at h
    split at h
    · rcases h with h | ⟨e, h⟩ <;> cases h
    · rename_i s1 hr
      have e1 := eff_ready hi hr
      have m1 := (ready_map hr).1
      rcases h with h | ⟨e, h⟩
      · cases h
        exact ⟨e1.trans (eff_same (e1.inn hi) rfl rfl rfl (.inr (.inl rfl)) (.inr (.inl rfl)) (fun q hq => .inl hq)), by rw [← m1]⟩
      · cases h

end TreeAsm

namespace TreeRef

def Ok (M : TreeMem) (a : TreeRef) : Prop :=
  (a.see M).In ∧ ∀ i, a.map = some i → i < M.maps.length

def Sep (M : TreeMem) (a b : TreeRef) : Prop :=
  (∀ t, t ≠ 0 → a.loc.Tgt t → ¬ b.loc.Tgt t ∧ ∀ q ∈ (b.see M).map.getD [], q.2.arr ≠ t) ∧
    ∀ i, a.map = some i → b.map ≠ some i

theorem see_back {pol : TreeAsm → Nat} {M : TreeMem} {a : TreeRef} {c : TreeCall} {s : TreeAsm} (ho : Ok M a)
    (h : (a.see M).step pol c = .ok s ∨ ∃ e, (a.see M).step pol c = .err e s) :
    (back M a c s).2.see (back M a c s).1 = s ∧ (back M a c s).1.heap = s.heap ∧
      (back M a c s).2.loc = s ∧ (∀ i, (back M a c s).2.map = some i → i < (back M a c s).1.maps.length) ∧
      (∀ j, (∀ i, a.map = some i → j ≠ i) → j < M.maps.length → (back M a c s).1.maps[j]? = M.maps[j]?) ∧
      M.maps.length ≤ (back M a c s).1.maps.length ∧
      (∀ i, (back M a c s).2.map = some i → a.map = some i ∨ M.maps.length ≤ i) := by
  obtain ⟨he, hm, hb⟩ := TreeAsm.step_eff ho.1 h
  by_cases hc : ∃ hint, c = .beginMap hint
  · obtain ⟨hint, rfl⟩ := hc
    have hmap := hb hint rfl
    have e : s = { s with map := some [] } := by rw [← hmap]
    refine ⟨?_, rfl, rfl, ?_, ?_, ?_, ?_⟩
    · simp only [back, see, hmap, Option.getD_some, Option.bind_some, List.getElem?_concat_length]
      exact e.symm
    · intro i hi
      simp only [back, Option.some.injEq] at hi
      subst hi
      simp [back]
    · intro j _ hj
      simp only [back, List.getElem?_append_left hj]
    · simp [back]
    · intro i hi
      simp only [back, Option.some.injEq] at hi
      right; omega
  · have hne : ∀ hint, c ≠ .beginMap hint := fun hint h => hc ⟨hint, h⟩
    have hsome := hm hne
    have hback : back M a c s = match a.map with
        | none => (⟨s.heap, M.maps⟩, ⟨none, s⟩)
        | some i => (⟨s.heap, M.maps.set i (s.map.getD [])⟩, ⟨some i, s⟩) := by
      cases c <;> first | rfl | exact absurd rfl (hne _)
    rw [hback]
    cases ha : a.map with
    | none =>
      have hn : s.map = none := by
        have : (a.see M).map = none := by simp [see, ha]
        rw [this] at hsome
        simpa using hsome
      refine ⟨?_, rfl, rfl, (by intro i hi; cases hi), fun _ _ _ => rfl, Nat.le_refl _, by intro i hi; cases hi⟩
      simp only [see, Option.bind_none]
      rw [← hn]
    | some i =>
      have hil := ho.2 i ha
      have hs : ∃ l, s.map = some l := by
        have : (a.see M).map = some (M.maps[i]'hil) := by simp [see, ha]
        rw [this] at hsome
        exact Option.isSome_iff_exists.1 hsome
      obtain ⟨l, hs⟩ := hs
      refine ⟨?_, rfl, rfl, ?_, ?_, by simp, ?_⟩
      · simp only [see, Option.bind_some, List.getElem?_set_self hil, hs, Option.getD_some]
        rw [← hs]
      · intro j hj
        cases hj
        simpa using hil
      · intro j hj _
        exact List.getElem?_set_ne (Ne.symm (hj i rfl))
      · intro j hj; exact .inl hj

/-- A tree whose arrays and map are untouched reads as before. -/
theorem view_frame {pol : TreeAsm → Nat} {M M' : TreeMem} {b : TreeRef}
    (harr : M'.heap[b.loc.arr]? = M.heap[b.loc.arr]?)
    (hmap : b.map.bind (M'.maps[·]?) = b.map.bind (M.maps[·]?))
    (hptr : ∀ q ∈ (b.see M).map.getD [], M'.heap[q.2.arr]? = M.heap[q.2.arr]?) :
    (treeKind pol).view M' b = (treeKind pol).view M b := by
  have find_mem : ∀ (l : List (Bytes × Ptr)) (k : Bytes) (p : Ptr), TreeAsm.find l k = some p → (k, p) ∈ l := by
    intro l k p
    induction l with
    | nil => intro h; simp [TreeAsm.find] at h
    | cons x r ih =>
      intro h
      simp only [TreeAsm.find] at h
      split at h
      · rename_i hk
        cases h
        rw [← hk]; simp
      · exact List.mem_cons_of_mem _ (ih h)
  simp only [treeKind, TreeView.mk.injEq]
  refine ⟨?_, ?_⟩
  · simp only [TreeAsm.table, see, harr]
  · funext k
    simp only [TreeAsm.lookup, see, hmap]
    cases hg : TreeAsm.get (b.map.bind (M.maps[·]?)) k with
    | none => rfl
    | some p =>
      have hmem : (k, p) ∈ (b.see M).map.getD [] := by
        cases hb : b.map.bind (M.maps[·]?) with
        | none => rw [hb] at hg; simp [TreeAsm.get] at hg
        | some l =>
          rw [hb] at hg
          simp only [see, hb, Option.getD_some]
          exact find_mem l k p hg
      simp only [Option.bind_some, TreeAsm.deref]
      rw [hptr _ hmem]

end TreeRef

/-- Trees. -/
def treeSeparation (pol : TreeAsm → Nat) : Separation (treeKind pol) where
  good M := M.heap[0]? = some []
  ok := TreeRef.Ok
  sep := TreeRef.Sep
  init_good := rfl
  fresh_law := by
    intro M t hg
    have h0 : 0 < M.heap.length := (List.getElem?_eq_some_iff.1 hg).1
    refine ⟨hg, ⟨⟨hg, ⟨[], hg, Nat.le_refl _⟩, (by intro p hp; cases hp), (by intro p hp; cases hp), by intro q hq; simp [treeKind, TreeRef.see] at hq⟩,
      by intro i hi; cases hi⟩, ?_⟩
    intro b hb
    have no : ∀ t, t ≠ 0 → ¬ TreeAsm.fresh.Tgt t := by
      intro t ht h
      rcases h with h | h | ⟨p, hp, -⟩ | ⟨p, hp, -⟩
      · exact absurd h ht
      · exact absurd h ht
      · cases hp
      · cases hp
    refine ⟨hb, rfl, ⟨?_, by intro i hi; cases hi⟩, ⟨?_, by intro i _ hi; cases hi⟩, fun b' _ h => h⟩
    · intro t ht h
      exact absurd h (no t ht)
    · intro t ht _
      exact ⟨no t ht, by intro q hq; simp [treeKind, TreeRef.see] at hq⟩
  free_done := by
    intro a c h
    simpa [treeKind] using h
  step_law := by
    intro M a arg c M' a' hg ho hf harg hs
    cases c with
    | assignOwn =>
      simp only [treeKind, TreeRef.step] at hs
      split at hs
      · rename_i b0 hm
        cases hs
        obtain ⟨o0, -, s0⟩ := harg b0 rfl
        refine ⟨hg, ⟨⟨hg, o0.1.bound, ho.1.ka, ho.1.va, o0.1.ptr⟩, o0.2⟩, ?_⟩
        intro b hb hab
        refine ⟨hb, rfl, by simp [treeKind], ?_, fun _ _ _ h1 => h1⟩
        intro h1 h2
        have h2 := h2 b0 rfl
        refine ⟨?_, h2.2⟩
        intro t ht htg
        refine ⟨?_, (h2.1 t ht htg).2⟩
        rintro (h | h | h | h)
        · exact ht h
        · exact (h2.1 t ht htg).1 (.inr (.inl h))
        · exact (h1.1 t ht htg).1 (.inr (.inr (.inl h)))
        · exact (h1.1 t ht htg).1 (.inr (.inr (.inr h)))
      · simp at hs
    | call c =>
      have hs' : ∃ s, ((a.see M).step pol c = .ok s ∨ ∃ e, (a.see M).step pol c = .err e s) ∧
          (M', a') = TreeRef.back M a c s := by
        simp only [treeKind, TreeRef.step] at hs
        split at hs
        · rename_i s h1; exact ⟨s, .inl h1, (Option.some.inj hs).symm⟩
        · rename_i e s h1; exact ⟨s, .inr ⟨e, h1⟩, (Option.some.inj hs).symm⟩
        · simp at hs
      obtain ⟨s, hstep, hback⟩ := hs'
      obtain ⟨b1, b2, b3, b4, b5, b6, b7⟩ := TreeRef.see_back ho hstep
      obtain ⟨he, -, -⟩ := TreeAsm.step_eff ho.1 hstep
      rw [← hback] at b1 b2 b3 b4 b5 b6 b7
      simp only at b1 b2 b3 b4 b5 b6 b7
      have tgtM : ∀ t, s.Tgt t → a.loc.Tgt t ∨ M.heap.length ≤ t := by
        intro t ht
        rcases ht with rfl | rfl | ⟨p, hp, rfl⟩ | ⟨p, hp, rfl⟩
        · exact .inl (.inl rfl)
        · exact he.arr.1
        · exact (he.ka p hp).1
        · exact (he.va p hp).1
      refine ⟨by rw [b2]; exact he.zero, ⟨by rw [b1]; exact he.inn ho.1, b4⟩, ?_⟩
      have bnd : ∀ b, TreeRef.Ok M b → ∀ t, t ≠ 0 → b.loc.Tgt t → t < M.heap.length := by
        intro b hb t ht htg
        rcases htg with h | h | ⟨p, hp, rfl⟩ | ⟨p, hp, rfl⟩
        · exact absurd h ht
        · rw [h]; exact hb.1.arr
        · exact hb.1.ka p hp
        · exact hb.1.va p hp
      -- another builder is left alone
      have other : ∀ b, TreeRef.Ok M b → TreeRef.Sep M a b →
          (∀ t, (t = b.loc.arr ∨ ∃ q ∈ (b.see M).map.getD [], t = q.2.arr) → M'.heap[t]? = M.heap[t]?) ∧
          b.map.bind (M'.maps[·]?) = b.map.bind (M.maps[·]?) := by
        intro b hb hab
        refine ⟨?_, ?_⟩
        · intro t ht
          rw [b2]
          have hlt : t < M.heap.length := by
            rcases ht with rfl | ⟨q, hq, rfl⟩
            · exact hb.1.arr
            · exact hb.1.ptr q hq
          refine he.frame t hlt ?_
          by_cases h0 : t = 0
          · exact .inl h0
          · right
            intro htg
            have := hab.1 t h0 htg
            rcases ht with rfl | ⟨q, hq, rfl⟩
            · exact this.1 (.inr (.inl rfl))
            · exact this.2 q hq rfl
        · cases hbm : b.map with
          | none => rfl
          | some j =>
            simp only [Option.bind_some]
            refine b5 j ?_ (hb.2 j hbm)
            rintro i hi rfl
            exact hab.2 j hi hbm
      have seem : ∀ b, TreeRef.Ok M b → TreeRef.Sep M a b → (b.see M').map = (b.see M).map :=
        fun b hb hab => (other b hb hab).2
      intro b hb hab
      obtain ⟨o1, o2⟩ := other b hb hab
      refine ⟨⟨⟨?_, ?_, ?_, ?_, ?_⟩, ?_⟩, ?_, ?_, ?_, ?_⟩
      · simp only [TreeRef.see, b2]; exact he.zero
      · obtain ⟨l, hl, hle⟩ := hb.1.bound
        exact ⟨l, (o1 _ (.inl rfl)).trans hl, hle⟩
      · intro p hp
        simp only [TreeRef.see, b2]; exact Nat.lt_of_lt_of_le (hb.1.ka p hp) he.len
      · intro p hp
        simp only [TreeRef.see, b2]; exact Nat.lt_of_lt_of_le (hb.1.va p hp) he.len
      · intro q hq
        rw [seem b hb hab] at hq
        simp only [TreeRef.see, b2]; exact Nat.lt_of_lt_of_le (hb.1.ptr q hq) he.len
      · intro i hi
        exact Nat.lt_of_lt_of_le (hb.2 i hi) b6
      · exact TreeRef.view_frame (o1 _ (.inl rfl)) o2 (fun q hq => o1 _ (.inr ⟨q, hq, rfl⟩))
      · intro _
        refine ⟨?_, ?_⟩
        · intro t ht htg
          rw [b3] at htg
          rw [seem b hb hab]
          rcases tgtM t htg with h | h
          · exact hab.1 t ht h
          · refine ⟨?_, ?_⟩
            · intro hb'
              have := bnd b hb t ht hb'
              omega
            · intro q hq
              have h2 := hb.1.ptr q hq
              have h3 : q.2.arr < M.heap.length := h2
              omega
        · intro i hi hbi
          rcases b7 i hi with h | h
          · exact hab.2 i h hbi
          · have := hb.2 i hbi
            omega
      · intro hba _
        refine ⟨?_, ?_⟩
        · intro t ht htg
          have tlt := bnd b hb t ht htg
          have hbat := hba.1 t ht htg
          refine ⟨?_, ?_⟩
          · rw [b3]
            intro h
            rcases tgtM t h with h | h
            · exact hbat.1 h
            · omega
          · rw [b1]
            intro q hq h
            rcases he.ptr q hq with h1 | h1
            · exact hbat.2 q h1 h
            · rw [h] at h1
              rcases h1.1 with h1 | h1
              · exact hbat.1 h1
              · have h3 : M.heap.length ≤ t := h1
                omega
        · intro i hi hai
          rcases b7 i hai with h | h
          · exact hba.2 i hi h
          · have := hb.2 i hi
            omega
      · intro b' hb' hab' hbb'
        refine ⟨?_, hbb'.2⟩
        intro t ht htg
        rw [seem b' hb' hab']
        exact hbb'.1 t ht htg

/-! ## Commits and people -/

namespace Slot

def Reach (s : Slot) (t : Nat) : Prop := s.v = some t ∨ s.w = some t

def Tgt (s : Slot) (t : Nat) : Prop := s.m ≠ .value ∧ s.w = some t

end Slot

namespace PeopleAsm

/-- The cells a builder may write to. -/
def Tgt : PeopleAsm → Nat → Prop
  | .person p _ _, t => t = p
  | .commit a, t => ∃ k, (a.slot k).Tgt t

/-- The cells a builder refers to. -/
def Reach : PeopleAsm → Nat → Prop
  | .person p _ _, t => t = p
  | .commit a, t => ∃ k, (a.slot k).Reach t

def Ok (M : List PersonInfo) (a : PeopleAsm) : Prop :=
  (∀ t, a.Reach t → t < M.length) ∧
    ∀ c, a = .commit c → ∀ k, (c.slot k).v ≠ none → (c.slot k).m = .value

def Sep (a b : PeopleAsm) : Prop := ∀ t, a.Tgt t → ¬ b.Reach t

theorem slot_setSlot (a : CommitAsm) (k k' : Who) (s : Slot) :
    (a.setSlot k s).slot k' = if k = k' then s else a.slot k' := by
  cases k <;> cases k' <;> rfl

theorem Tgt.reach {a : PeopleAsm} {t : Nat} (h : a.Tgt t) : a.Reach t := by
  cases a with
  | person => exact h
  | commit a =>
    obtain ⟨k, h⟩ := h
    exact ⟨k, .inr h.2⟩

/-- A builder whose cells are untouched reads as before. -/
theorem view_frame {M M' : List PersonInfo} {b : PeopleAsm} (h : ∀ t, b.Reach t → M'[t]? = M[t]?) :
    view M' b = view M b := by
  cases b with
  | person p m f =>
    have := h p rfl
    simp only [view, this]
  | commit a =>
    have hl : ∀ k, load M' (a.slot k).v = load M (a.slot k).v := by
      intro k
      cases hv : (a.slot k).v with
      | none => rfl
      | some t =>
        simp only [load, Option.bind_some]
        exact h t ⟨k, .inl hv⟩
    have h1 := hl .author
    have h2 := hl .committer
    simp only [CommitAsm.slot] at h1 h2
    simp only [view, List.map_cons, List.map_nil, h1, h2]

/-- What an allowed call can change. -/
structure Eff (M : List PersonInfo) (a : PeopleAsm) (arg : Option PeopleAsm) (M' : List PersonInfo)
    (a' : PeopleAsm) : Prop where
  len : M.length ≤ M'.length
  frame : ∀ t, t < M.length → ¬ a.Tgt t → M'[t]? = M[t]?
  reach : ∀ t, a'.Reach t → t < M'.length ∧
    (a.Reach t ∨ (∃ b0, arg = some b0 ∧ b0.Reach t) ∨ M.length ≤ t)
  tgt : a'.done = false → ∀ t, a'.Tgt t → a.Tgt t ∨ M.length ≤ t
  ok : ∀ c, a' = .commit c → ∀ k, (c.slot k).v ≠ none → (c.slot k).m = .value

/-- A change of one slot without a store. -/
theorem eff_slot {M : List PersonInfo} {a a' : CommitAsm} {arg : Option PeopleAsm}
    (ho : Ok M (.commit a))
    (h : ∀ k, a'.slot k = a.slot k ∨
      ((∀ t, (a'.slot k).Reach t → (a.slot k).Reach t ∨
          ((∃ b0, arg = some b0 ∧ b0.Reach t) ∧ t < M.length)) ∧
        (∀ t, (a'.slot k).Tgt t → (a.slot k).Tgt t) ∧
        ((a'.slot k).v ≠ none → (a'.slot k).m = .value))) :
    Eff M (.commit a) arg M (.commit a') := by
  refine ⟨Nat.le_refl _, fun _ _ _ => rfl, ?_, ?_, ?_⟩
  · rintro t ⟨k, hk⟩
    rcases h k with e | ⟨e, -, -⟩
    · rw [e] at hk
      exact ⟨ho.1 t ⟨k, hk⟩, .inl ⟨k, hk⟩⟩
    · rcases e t hk with e | ⟨e, e'⟩
      · exact ⟨ho.1 t ⟨k, e⟩, .inl ⟨k, e⟩⟩
      · exact ⟨e', .inr (.inl e)⟩
  · rintro - t ⟨k, hk⟩
    rcases h k with e | ⟨-, e, -⟩
    · rw [e] at hk
      exact .inl ⟨k, hk⟩
    · exact .inl ⟨k, e t hk⟩
  · rintro c hc k hv
    cases hc
    rcases h k with e | ⟨-, -, e⟩
    · rw [e] at hv ⊢
      exact ho.2 a rfl k hv
    · exact e hv

theorem ready_some {a a' : CommitAsm} (h : a.ready = some a') :
    (∀ k, a'.slot k = a.slot k ∨ ((a.slot k).m = .value ∧ a'.slot k = { a.slot k with v := (a.slot k).w })) ∧
      a'.m = a.m := by
  unfold CommitAsm.ready at h
  split at h
  · simp at h
  · split at h
    · cases h; exact ⟨fun _ => .inl rfl, rfl⟩
    · rename_i k hk
      split at h
      · rename_i hm
        cases h
        refine ⟨?_, by cases k <;> rfl⟩
        intro k'
        by_cases hkk : k = k'
        · subst hkk
          right
          exact ⟨hm, by cases k <;> rfl⟩
        · left
          cases k <;> cases k' <;> first | rfl | exact absurd rfl hkk
      · simp at h

theorem step_eff {M M' : List PersonInfo} {a a' : PeopleAsm} {arg : Option PeopleAsm} {c : PeopleCall}
    (ho : Ok M a) (hf : a.free c = true) (harg : ∀ b0, arg = some b0 → Ok M b0)
    (hs : a.step M arg c = some (M', a')) : Eff M a arg M' a' := by
  unfold step at hs
  split at hs
  · -- a person is copied into the builder's cell
    rename_i p fin q _ _
    simp only [Option.map_eq_some_iff] at hs
    obtain ⟨x, hx, he⟩ := hs
    cases he
    refine ⟨by simp, ?_, ?_, by simp [done], by intro c hc; cases hc⟩
    · intro t _ ht
      exact List.getElem?_set_ne (by rintro rfl; exact ht rfl)
    · rintro t rfl
      exact ⟨by simpa using ho.1 t rfl, .inl rfl⟩
  · cases hs
    exact ⟨Nat.le_refl _, fun _ _ _ => rfl, fun t ht => ⟨ho.1 t ht, .inl ht⟩, fun _ t ht => .inl ht,
      by intro c hc; cases hc⟩
  · rename_i p m f
    cases hs
    refine ⟨by simp, ?_, ?_, fun _ t ht => .inl ht, by intro c hc; cases hc⟩
    · intro t _ ht
      have hne : p ≠ t := by rintro rfl; exact ht rfl
      simp only [List.getElem?_modify, if_neg hne]
      cases M[t]? <;> rfl
    · rintro t rfl
      exact ⟨by simpa using ho.1 t rfl, .inl rfl⟩
  · cases hs
    exact ⟨Nat.le_refl _, fun _ _ _ => rfl, fun t ht => ⟨ho.1 t ht, .inl ht⟩, fun _ t ht => .inl ht,
      by intro c hc; cases hc⟩
  · -- a commit is copied
    rename_i a b
    split at hs
    · cases hs
      have hb := harg _ rfl
      refine ⟨Nat.le_refl _, fun _ _ _ => rfl, ?_, by simp [done], ?_⟩
      · rintro t ⟨k, hk⟩
        have : (b.slot k).v = some t ∨ (a.slot k).w = some t := by cases k <;> exact hk
        rcases this with h | h
        · exact ⟨hb.1 t ⟨k, .inl h⟩, .inr (.inl ⟨_, rfl, k, .inl h⟩)⟩
        · exact ⟨ho.1 t ⟨k, .inr h⟩, .inl ⟨k, .inr h⟩⟩
      · rintro c hc k hv
        cases hc
        have := hb.2 b rfl k
        cases k <;> exact this hv
    · simp at hs
  · rename_i a
    split at hs
    · cases hs
      exact eff_slot ho (fun k => .inl (by cases k <;> rfl))
    · simp at hs
  · -- a person's assembler is opened
    rename_i a k
    simp only [Option.map_eq_some_iff] at hs
    obtain ⟨a1, hr, he⟩ := hs
    obtain ⟨r1, -⟩ := ready_some hr
    have e1 : ∀ k', a1.slot k' = a.slot k' ∨
      ((∀ t, (a1.slot k').Reach t → (a.slot k').Reach t) ∧
        (∀ t, (a1.slot k').Tgt t → (a.slot k').Tgt t) ∧
        ((a1.slot k').v ≠ none → (a1.slot k').m = .value)) := by
      intro k'
      rcases r1 k' with h | ⟨h1, h2⟩
      · exact .inl h
      · right
        rw [h2]
        refine ⟨fun t ht => ?_, fun t ht => ht, fun _ => h1⟩
        rcases ht with ht | ht
        · exact .inr ht
        · exact .inr ht
    have v1 : ∀ k', (a1.slot k').v ≠ none → (a1.slot k').m = .value := by
      intro k' hv
      rcases e1 k' with h | ⟨-, -, h⟩
      · rw [h] at hv ⊢; exact ho.2 a rfl k' hv
      · exact h hv
    split at he
    · cases he
      refine eff_slot ho (fun k' => ?_)
      rcases e1 k' with h | ⟨h1, h2, h3⟩
      · exact .inl h
      · exact .inr ⟨fun t ht => .inl (h1 t ht), h2, h3⟩
    · cases he
      refine eff_slot ho (fun k' => ?_)
      have hsl : CommitAsm.slot { a1.setSlot k { a1.slot k with w := (a1.slot k).v } with
          mid := some k, seen := k :: a1.seen } k' =
          if k = k' then { a1.slot k with w := (a1.slot k).v } else a1.slot k' := by
        cases k <;> cases k' <;> rfl
      rw [hsl]
      by_cases hkk : k = k'
      · subst hkk
        rw [if_pos rfl]
        right
        refine ⟨fun t ht => ?_, fun t ht => ?_, v1 k⟩
        · have ht' : (a1.slot k).v = some t := by rcases ht with ht | ht <;> exact ht
          rcases e1 k with h | ⟨h1, -, -⟩
          · left; rw [← h]; exact .inl ht'
          · exact .inl (h1 t (.inl ht'))
        · have hv : (a1.slot k).v = some t := ht.2
          have := v1 k (by rw [hv]; simp)
          exact absurd this ht.1
      · rw [if_neg hkk]
        rcases e1 k' with h | ⟨h1, h2, h3⟩
        · exact .inl h
        · exact .inr ⟨fun t ht => .inl (h1 t ht), h2, h3⟩
  · -- a person is given
    rename_i a q pm pf k
    have hq : q < M.length := (harg _ rfl).1 q rfl
    split at hs
    · rename_i hm
      split at hs
      · rename_i hw
        cases hs
        refine eff_slot ho (fun k' => ?_)
        rw [slot_setSlot]
        by_cases hkk : k = k'
        · subst hkk
          rw [if_pos rfl]
          right
          refine ⟨fun t ht => ?_, fun t ht => absurd rfl ht.1, fun _ => rfl⟩
          rcases ht with ht | ht
          · exact .inl (.inl ht)
          · cases ht
            exact .inr ⟨⟨_, rfl, rfl⟩, hq⟩
        · rw [if_neg hkk]
          exact .inl rfl
      · rename_i p hw
        simp only [Option.map_eq_some_iff] at hs
        obtain ⟨x, hx, he⟩ := hs
        cases he
        have htg : Tgt (.commit a) p := ⟨k, by rw [hm]; decide, hw⟩
        have e := eff_slot (a := a) (a' := a.setSlot k { a.slot k with m := .value })
          (arg := some (.person q pm pf)) ho (fun k' => by
            rw [slot_setSlot]
            by_cases hkk : k = k'
            · subst hkk
              rw [if_pos rfl]
              right
              exact ⟨fun t ht => .inl ht, fun t ht => absurd rfl ht.1, fun _ => rfl⟩
            · rw [if_neg hkk]
              exact .inl rfl)
        refine ⟨by simp, ?_, ?_, e.tgt, e.ok⟩
        · intro t _ ht
          exact List.getElem?_set_ne (by rintro rfl; exact ht htg)
        · intro t ht
          simpa using e.reach t ht
    · simp at hs
  · -- `BeginMap` on a person's assembler
    rename_i a k
    split at hs
    · rename_i hm
      split at hs
      · rename_i hw
        cases hs
        refine ⟨by simp, ?_, ?_, ?_, ?_⟩
        · intro t ht _
          exact List.getElem?_append_left ht
        · rintro t ⟨k', hk⟩
          rw [slot_setSlot] at hk
          by_cases hkk : k = k'
          · subst hkk
            rw [if_pos rfl] at hk
            rcases hk with h | h
            · have := ho.1 t ⟨k, .inl h⟩
              exact ⟨by simp; omega, .inl ⟨k, .inl h⟩⟩
            · cases h
              exact ⟨by simp, .inr (.inr (Nat.le_refl _))⟩
          · rw [if_neg hkk] at hk
            have := ho.1 t ⟨k', hk⟩
            exact ⟨by simp; omega, .inl ⟨k', hk⟩⟩
        · rintro - t ⟨k', hk⟩
          rw [slot_setSlot] at hk
          by_cases hkk : k = k'
          · subst hkk
            rw [if_pos rfl] at hk
            have := hk.2
            cases this
            exact .inr (Nat.le_refl _)
          · rw [if_neg hkk] at hk
            exact .inl ⟨k', hk⟩
        · rintro c hc k' hv
          cases hc
          rw [slot_setSlot] at hv ⊢
          by_cases hkk : k = k'
          · subst hkk
            rw [if_pos rfl] at hv
            have := ho.2 a rfl k hv
            rw [hm] at this
            cases this
          · rw [if_neg hkk] at hv ⊢
            exact ho.2 a rfl k' hv
      · rename_i p hw
        cases hs
        refine eff_slot ho (fun k' => ?_)
        rw [slot_setSlot]
        by_cases hkk : k = k'
        · subst hkk
          rw [if_pos rfl]
          right
          refine ⟨fun t ht => .inl ht, fun t ht => ⟨by rw [hm]; decide, ht.2⟩, fun hv => ?_⟩
          have := ho.2 a rfl k hv
          rw [hm] at this
          cases this
        · rw [if_neg hkk]
          exact .inl rfl
    · simp at hs
  · -- a store through a person's assembler
    rename_i a k f
    simp only [Option.map_eq_some_iff] at hs
    obtain ⟨p, hw, he⟩ := hs
    cases he
    have hm : (a.slot k).m ≠ .value := by
      simp only [free, Bool.and_eq_true, decide_eq_true_eq] at hf
      exact hf.2
    have htg : Tgt (.commit a) p := ⟨k, hm, hw⟩
    refine ⟨by simp, ?_, ?_, fun _ t ht => .inl ht, ho.2⟩
    · intro t _ ht
      have hne : p ≠ t := by rintro rfl; exact ht htg
      simp only [List.getElem?_modify, if_neg hne]
      cases M[t]? <;> rfl
    · intro t ht
      exact ⟨by simpa using ho.1 t ht, .inl ht⟩
  · rename_i a k
    cases hs
    refine eff_slot ho (fun k' => ?_)
    rw [slot_setSlot]
    by_cases hkk : k = k'
    · subst hkk
      rw [if_pos rfl]
      right
      exact ⟨fun t ht => .inl ht, fun t ht => absurd rfl ht.1, fun _ => rfl⟩
    · rw [if_neg hkk]
      exact .inl rfl
  · rename_i a
    simp only [Option.map_eq_some_iff] at hs
    obtain ⟨a1, hr, he⟩ := hs
    obtain ⟨r1, -⟩ := ready_some hr
    cases he
    refine eff_slot ho (fun k' => ?_)
    have : CommitAsm.slot { a1 with finished := true, m := .value } k' = a1.slot k' := by cases k' <;> rfl
    rw [this]
    rcases r1 k' with h | ⟨h1, h2⟩
    · exact .inl h
    · right
      rw [h2]
      refine ⟨fun t ht => ?_, fun t ht => ht, fun _ => h1⟩
      rcases ht with ht | ht
      · exact .inl (.inr ht)
      · exact .inl (.inr ht)
  · simp at hs

end PeopleAsm

/-- Commits and people. -/
def peopleSeparation : Separation peopleKind where
  good _ := True
  ok := PeopleAsm.Ok
  sep _ := PeopleAsm.Sep
  init_good := trivial
  fresh_law := by
    intro M t _
    cases t with
    | true =>
      have no : ∀ t, ¬ PeopleAsm.newCommit.Reach t := by
        rintro t ⟨k, h⟩
        cases k <;> rcases h with h | h <;> cases h
      refine ⟨trivial, ⟨fun t h => absurd h (no t), ?_⟩, ?_⟩
      · intro c hc k hv
        cases hc
        cases k <;> exact absurd rfl hv
      · intro b hb
        exact ⟨hb, rfl, fun t ht => absurd ht.reach (no t), fun t _ => no t, fun _ _ h => h⟩
    | false =>
      have hl : M.length ≤ (M ++ [PersonInfo.zero]).length := by simp
      refine ⟨trivial, ⟨?_, by intro c hc; cases hc⟩, ?_⟩
      · rintro t h
        have : t = M.length := h
        subst this
        simp [peopleKind]
      · intro b hb
        refine ⟨⟨fun t ht => Nat.lt_of_lt_of_le (hb.1 t ht) hl, hb.2⟩, ?_, ?_, ?_, fun _ _ h => h⟩
        · exact PeopleAsm.view_frame (fun t ht => List.getElem?_append_left (hb.1 t ht))
        · intro t ht hr
          have e : t = M.length := ht
          have := hb.1 t hr
          omega
        · intro t ht hr
          have e : t = M.length := hr
          have := hb.1 t ht.reach
          omega
  free_done := by
    intro a c h
    have h : PeopleAsm.free a c = true := h
    unfold PeopleAsm.free at h
    rw [Bool.and_eq_true, Bool.not_eq_true'] at h
    exact h.1
  step_law := by
    intro M a arg c M' a' _ ho hf harg hs
    have e := PeopleAsm.step_eff ho hf (fun b0 hb => (harg b0 hb).1) hs
    refine ⟨trivial, ⟨fun t ht => (e.reach t ht).1, e.ok⟩, ?_⟩
    intro b hb hab
    refine ⟨⟨fun t ht => Nat.lt_of_lt_of_le (hb.1 t ht) e.len, hb.2⟩, ?_, ?_, ?_, fun _ _ _ h => h⟩
    · exact PeopleAsm.view_frame (fun t ht => e.frame t (hb.1 t ht) (fun h => hab t h ht))
    · intro hd t ht hr
      rcases e.tgt hd t ht with h | h
      · exact hab t h hr
      · have := hb.1 t hr
        omega
    · intro hba h0 t ht hr
      rcases (e.reach t hr).2 with h | ⟨b0, hb0, h⟩ | h
      · exact hba t ht h
      · exact h0 b0 hb0 t ht h
      · have := hb.1 t ht.reach
        omega

end Verif
