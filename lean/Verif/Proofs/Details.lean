import Verif.Spec.Details
import Verif.Proofs.Calls

/-! Lemmas about what errors say. -/

namespace Verif

open Spec Calls

theorem fields_distinct {t : T} {fs : List FieldT} (h : t.shape = .struct fs) :
    (fs.map (·.name)).Nodup := by
  cases t <;> cases h <;> decide

theorem field_name_inj {fs : List FieldT} (hn : (fs.map (·.name)).Nodup) {i j : Nat} {a b : FieldT}
    (ha : FieldAt fs i a) (hb : FieldAt fs j b) (h : a.name = b.name) : i = j := by
  have ha' : fs[i]? = some a := ha
  have hb' : fs[j]? = some b := hb
  have hi : (fs.map (·.name))[i]? = some a.name := by rw [List.getElem?_map, ha']; rfl
  have hj : (fs.map (·.name))[j]? = some a.name := by rw [List.getElem?_map, hb', h]; rfl
  have hlt : i < (fs.map (·.name)).length := by
    rcases Nat.lt_or_ge i (fs.map (·.name)).length with h | h
    · exact h
    · rw [List.getElem?_eq_none h] at hi; cases hi
  exact (List.getElem?_inj hlt hn).1 (hi.trans hj.symm)

/-- The step of `keysAt`. -/
def keysFrom (d : Nat) (ks : List Bytes) (cs : List (Nat × Call)) : List Bytes :=
  cs.foldl (fun ks p =>
    if p.1 < d then []
    else if p.1 = d then
      match keyOf p.2 with
      | some k => ks ++ [k]
      | none => ks
    else ks) ks

theorem keysAt_eq (d : Nat) (cs : List (Nat × Call)) : keysAt d cs = keysFrom d [] cs := rfl

theorem keysFrom_append (d : Nat) (ks : List Bytes) (xs ys : List (Nat × Call)) :
    keysFrom d ks (xs ++ ys) = keysFrom d (keysFrom d ks xs) ys := by
  simp [keysFrom, List.foldl_append]

theorem keysFrom_cons (d : Nat) (ks : List Bytes) (p : Nat × Call) (cs : List (Nat × Call)) :
    keysFrom d ks (p :: cs) = keysFrom d (keysFrom d ks [p]) cs := rfl

theorem keysFrom_deeper_zero (ks : List Bytes) (c : List (Nat × Call)) :
    keysFrom 0 ks (deeper c) = ks := by
  induction c generalizing ks with
  | nil => rfl
  | cons p r ih =>
    show keysFrom 0 _ (deeper r) = ks
    rw [ih]
    simp

theorem keysFrom_deeper (d : Nat) (ks : List Bytes) (c : List (Nat × Call)) :
    keysFrom (d + 1) ks (deeper c) = keysFrom d ks c := by
  induction c generalizing ks with
  | nil => rfl
  | cons p r ih =>
    show keysFrom (d + 1) _ (deeper r) = keysFrom d _ r
    rw [ih]
    congr 1
    simp only [Nat.add_lt_add_iff_right, Nat.add_right_cancel_iff]

theorem keysFrom_names_zero {k : Bytes} {nm : List (Nat × Call)} (h : Names k nm) (ks : List Bytes) :
    keysFrom 0 ks nm = ks ++ [k] := by
  cases h <;> rfl

theorem keysFrom_names {k : Bytes} {nm : List (Nat × Call)} (h : Names k nm) (d : Nat) (ks : List Bytes) :
    keysFrom (d + 1) ks nm = [] := by
  cases h <;> simp [keysFrom]

/-- The keys named are the fields given. -/
theorem entries_keys {fs : List FieldT} {l : List (Option Val)} {cs : List (Nat × Call)}
    (h : Entries fs l cs) (hn : (fs.map (·.name)).Nodup) (i : Nat) (fd : FieldT) (hf : FieldAt fs i fd)
    (ks : List Bytes) :
    fd.name ∈ keysFrom 0 ks cs ↔ fd.name ∈ ks ∨ ∃ v : Val, l[i]? = some (some v) := by
  revert hn hf
  refine Entries.rec (motive_1 := fun _ _ _ _ => True) (motive_2 := fun _ _ _ _ => True)
    (motive_3 := fun fs l cs _ => (fs.map (·.name)).Nodup → FieldAt fs i fd →
      (fd.name ∈ keysFrom 0 ks cs ↔ fd.name ∈ ks ∨ ∃ v : Val, l[i]? = some (some v)))
    (by intros; trivial) (by intros; trivial) (by intros; trivial) (by intros; trivial)
    (by intros; trivial) (by intros; trivial) (by intros; trivial) ?_ ?_ h
  · intro fs hn hf
    simp [keysFrom, List.getElem?_map]
  · intro fs l cs j fd' nm v c he hf' hl hnm _ ih _ hn hf
    rw [keysFrom_append, keysFrom_append, keysFrom_deeper_zero, keysFrom_names_zero hnm,
      List.mem_append, ih hn hf, List.mem_singleton, or_assoc]
    have hlt : j < l.length := by
      rcases Nat.lt_or_ge j l.length with h | h
      · exact h
      · rw [List.getElem?_eq_none h] at hl; cases hl
    by_cases hij : j = i
    · subst hij
      have e : some fd' = some fd := (show fs[j]? = some fd' from hf').symm.trans hf
      cases e
      simp [hlt]
    · rw [List.getElem?_set_ne hij]
      constructor
      · rintro (h | h | h)
        · exact Or.inl h
        · exact Or.inr h
        · exact absurd (field_name_inj hn hf' hf h.symm) hij
      · rintro (h | h)
        · exact Or.inl h
        · exact Or.inr (Or.inl h)

theorem keysFrom_begin (d : Nat) (c : Call) (h : keyOf c = none) (cs : List (Nat × Call)) :
    keysFrom d [] ((0, c) :: cs) = keysFrom d [] cs := by
  rw [keysFrom_cons]
  congr 1
  simp [keysFrom, h]

theorem find_field {fs : List FieldT} (hn : (fs.map (·.name)).Nodup) {i : Nat} {fd : FieldT}
    (hf : FieldAt fs i fd) : fs.find? (fun f => f.name = fd.name) = some fd := by
  induction fs generalizing i with
  | nil => cases hf
  | cons g r ih =>
    cases i with
    | zero =>
      have : some g = some fd := hf
      cases this
      simp
    | succ i =>
      have hf' : FieldAt r i fd := hf
      simp only [List.map_cons, List.nodup_cons] at hn
      have : g.name ≠ fd.name := by
        intro he
        apply hn.1
        rw [he]
        exact List.mem_map.2 ⟨fd, List.mem_of_getElem? hf', rfl⟩
      rw [List.find?_cons_of_neg (by simpa using this)]
      exact ih hn.2 hf'

/-- The handle one level down. -/
theorem partial_child {t : T} {a ch : Frame} {cs : List (Nat × Call)} (h : Partial t a cs)
    (hc : a.child = some ch) :
    ∃ u c, Partial u ch c ∧ below t (keysAt 0 cs).getLast? = some u ∧ ∀ d, keysAt (d + 1) cs = keysAt d c := by
  cases h with
  | listMid h n s f he hp =>
    cases hc
    refine ⟨_, _, hp, by simp only [below, h], fun d => ?_⟩
    rw [keysAt_eq, keysFrom_begin _ _ rfl, keysFrom_append, keysFrom_cons]
    have : ∀ ks, keysFrom (d + 1) ks [(0, Call.assembleValue)] = [] := by intro ks; simp [keysFrom]
    rw [this, keysFrom_deeper]
    rfl
  | structMid h s f he hb hf hl hnm hp =>
    cases hc
    refine ⟨_, _, hp, ?_, fun d => ?_⟩
    · rw [keysAt_eq, keysFrom_begin _ _ rfl, keysFrom_append, keysFrom_append, keysFrom_deeper_zero,
        keysFrom_names_zero hnm, List.getLast?_concat]
      simp only [below, h]
      rw [find_field (fields_distinct h) hf]
      rfl
    · rw [keysAt_eq, keysFrom_begin _ _ rfl, keysFrom_append, keysFrom_append, keysFrom_names hnm,
        keysFrom_deeper]
      rfl
  | _ => cases hc

theorem typeAt_shift {t u : T} {cs c : List (Nat × Call)}
    (hu : below t (keysAt 0 cs).getLast? = some u) (hk : ∀ d, keysAt (d + 1) cs = keysAt d c) (d : Nat) :
    typeAt t cs (d + 1) = typeAt u c d := by
  induction d with
  | zero => simp only [typeAt, Option.bind_some, hu]
  | succ d ih =>
    rw [typeAt, ih, hk d]
    rfl

theorem handleName_eq (repr : Bool) (t : T) : t.asmName repr = handleName repr t := by
  cases repr <;> cases t <;> rfl

theorem nullName_eq (repr : Bool) (t : T) :
    t.nullName repr = handleName repr t ++ if repr && !scalar t then b!".Repr" else [] := by
  cases repr <;> cases t <;> rfl

theorem keyName_eq (repr : Bool) {t : T} {fs : List FieldT} (h : t.shape = .struct fs) :
    t.keyName repr = handleName repr t ++ b!".KeyAssembler" := by
  cases repr <;> cases t <;> first | rfl | cases h


theorem find_none {fs : List FieldT} {k : Bytes} (h : find fs k = none) : k ∉ fs.map (·.name) := by
  intro hm
  obtain ⟨f, hf, rfl⟩ := List.mem_map.1 hm
  have := List.findIdx?_eq_none_iff.1 h f hf
  simp at this

theorem find_some {fs : List FieldT} {k : Bytes} {i : Nat} (h : find fs k = some i) :
    ∃ fd, FieldAt fs i fd ∧ fd.name = k := by
  obtain ⟨hlt, hp, _⟩ := List.findIdx?_eq_some_iff_getElem.1 h
  exact ⟨fs[i], List.getElem?_eq_getElem hlt, of_decide_eq_true hp⟩

theorem named_iff {t : T} {fs : List FieldT} (ht : t.shape = .struct fs) {l : List (Option Val)} {s : Nat}
    {es : List (Nat × Call)} (he : Entries fs l es) (hb : Bits s l) {i : Nat} {fd : FieldT}
    (hf : FieldAt fs i fd) : fd.name ∈ keysFrom 0 [] es ↔ s.testBit i = true := by
  rw [entries_keys he (fields_distinct ht) i fd hf, hb i]
  simp

theorem missing_eq {t : T} {fs : List FieldT} {s : Nat} {ks : List Bytes}
    (ht : t.shape = .struct fs)
    (h : ∀ i fd, FieldAt fs i fd → (fd.name ∈ ks ↔ s.testBit i = true)) :
    missingFrom 0 fs s = stillMissing t ks := by
  have key : ∀ (r : List FieldT) (n : Nat), (∀ i fd, FieldAt r i fd → (fd.name ∈ ks ↔ s.testBit (n + i) = true)) →
      missingFrom n r s = (r.filter fun f => f.required && !ks.contains f.name).map (·.name) := by
    intro r
    induction r with
    | nil => intros; rfl
    | cons f r ih =>
      intro n h
      have h0 := h 0 f rfl
      have hr := ih (n + 1) fun i fd hf => by
        have := h (i + 1) fd hf
        rwa [Nat.add_assoc, Nat.add_comm 1 i]
      have hbit : (s &&& 1 <<< n = 0) ↔ ¬ s.testBit n = true := by
        rw [← and_bit_ne_zero s n]; simp
      by_cases hm : f.name ∈ ks
      · have hb : ¬ (s &&& 1 <<< n = 0) := by rw [hbit]; simpa using h0.1 hm
        simp [missingFrom, hb, hr, hm]
      · have hb : s &&& 1 <<< n = 0 := by
          rw [hbit]; intro hb; exact hm (h0.2 hb)
        cases hreq : f.required <;> simp [missingFrom, hb, hr, hm, hreq]
  rw [key fs 0 (by simpa using h)]
  simp only [stillMissing, fieldsOf, ht]

theorem allGiven_iff {t : T} {fs : List FieldT} {l : List (Option Val)} {s : Nat} {ks : List Bytes}
    (ht : t.shape = .struct fs) (hb : Bits s l)
    (h : ∀ i fd, FieldAt fs i fd → (fd.name ∈ ks ↔ s.testBit i = true)) :
    AllGiven fs l ↔ stillMissing t ks = [] := by
  simp only [stillMissing, fieldsOf, ht, List.map_eq_nil_iff, List.filter_eq_nil_iff]
  constructor
  · intro ha f hf
    obtain ⟨i, hi⟩ := List.getElem?_of_mem hf
    cases hr : f.required with
    | false => simp
    | true =>
      have := (h i f hi).2 ((hb i).2 (ha i f hi hr))
      simp [this]
  · intro hall i fd hf hr
    have := hall fd (List.mem_of_getElem? hf)
    simp only [hr, Bool.true_and, Bool.not_eq_true', Bool.not_eq_false] at this
    refine (hb i).1 ((h i fd hf).1 ?_)
    simpa using this

theorem keyWhy_told {t : T} {fs : List FieldT} (ht : t.shape = .struct fs) {s : Nat} {ks : List Bytes}
    (h : ∀ i fd, FieldAt fs i fd → (fd.name ∈ ks ↔ s.testBit i = true)) (repr : Bool) {k : Bytes} {c : Call}
    (hk : keyOf c = some k) (hs : suits t c = true) (hfin : c ≠ .finish) :
    (∀ e, takeKey fs k s = .err e →
      ∃ x, keyWhy repr t fs k s = some x ∧ x.err = e ∧ Wrong repr t ks c x) ∧
    (∀ p, takeKey fs k s = .ok p → keyWhy repr t fs k s = none ∧ ∀ x, ¬ Wrong repr t ks c x) := by
  have hfo : fieldsOf t = fs := by simp only [fieldsOf, ht]
  unfold takeKey keyWhy
  cases hfd : find fs k with
  | none =>
    refine ⟨fun e he => ?_, fun p hp => by cases hp⟩
    cases he
    exact ⟨_, rfl, rfl, hk, by rw [hfo]; exact find_none hfd, handleName_eq repr t⟩
  | some i =>
    obtain ⟨fd, hf, hname⟩ := find_some hfd
    have hf' : fs[i]? = some fd := hf
    have hmem : k ∈ fs.map (·.name) := by
      rw [← hname]; exact List.mem_map.2 ⟨fd, List.mem_of_getElem? hf', rfl⟩
    by_cases hb : s &&& 1 <<< i ≠ 0
    · simp only [if_pos hb, hf', Option.map_some]
      refine ⟨fun e he => ?_, fun p hp => by cases hp⟩
      cases he
      refine ⟨_, rfl, rfl, by rw [hk, hname], by rw [hfo, hname]; exact hmem, ?_⟩
      exact (h i fd hf).2 ((and_bit_ne_zero s i).1 hb)
    · simp only [if_neg hb, hf']
      refine ⟨fun e he => (by cases he), fun p _ => ⟨trivial, fun x => ?_⟩⟩
      cases x with
      | wrongKind n => rintro ⟨h1, _⟩; rw [hs] at h1; cases h1
      | invalidKey n k' =>
        rintro ⟨h1, h2, _⟩
        rw [hk] at h1; cases h1
        rw [hfo] at h2
        exact h2 hmem
      | repeatedKey k' =>
        rintro ⟨h1, _, h3⟩
        rw [hk] at h1; cases h1
        rw [← hname] at h3
        exact hb ((and_bit_ne_zero s i).2 ((h i fd hf).1 h3))
      | missing ns => rintro ⟨h1, _⟩; exact hfin h1

/-- A call that nothing is wrong with. -/
theorem not_wrong {repr : Bool} {t : T} {ks : List Bytes} {c : Call} (hk : keyOf c = none)
    (hs : suits t c = true) (hfin : c ≠ .finish) (x : Detail) : ¬ Wrong repr t ks c x := by
  cases x with
  | wrongKind n => rintro ⟨h1, _⟩; rw [hs] at h1; cases h1
  | invalidKey n k' => rintro ⟨h1, _⟩; rw [hk] at h1; cases h1
  | repeatedKey k' => rintro ⟨h1, _⟩; rw [hk] at h1; cases h1
  | missing ns => rintro ⟨h1, _⟩; exact hfin h1


theorem wrong_kind {repr : Bool} {t : T} {ks : List Bytes} {c : Call} (hs : suits t c = false)
    (hn : c ≠ .assignNull) (hk : c ≠ .keyAssignOther) :
    Wrong repr t ks c (.wrongKind (t.asmName repr)) := by
  refine ⟨hs, ?_⟩
  rw [handleName_eq]
  split
  · exact absurd rfl hn
  · exact absurd rfl hk
  · simp

/-- A call on the assembler's own handle. -/
theorem call_told {t : T} {a : Frame} {cs : List (Nat × Call)} (h : Partial t a cs) (repr : Bool) (c : Call) :
    (∀ e a', a.call c = .err e a' →
      ∃ x, a.why repr c = some x ∧ x.err = e ∧ Wrong repr t (keysAt 0 cs) c x) ∧
    (∀ a', a.call c = .ok a' → a.why repr c = none ∧ ∀ x, ¬ Wrong repr t (keysAt 0 cs) c x) := by
  have hty := partial_ty h
  have ready_keys : ∀ {fs : List FieldT}, t.shape = .struct fs → a.begun = true → ∀ {a' : Frame}, ready a = some a' →
      a'.ty = t ∧ ∃ l, Bits a'.s l ∧ ∀ i fd, FieldAt fs i fd → (fd.name ∈ keysAt 0 cs ↔ a'.s.testBit i = true) := by
    intro fs hsh hb a' hr
    obtain ⟨l, es, s, f, rfl, he, hbits, rfl⟩ := ready_struct h hsh hb hr
    refine ⟨rfl, l, hbits, fun i fd hf => ?_⟩
    rw [keysAt_eq, keysFrom_begin _ _ rfl]
    exact named_iff hsh he hbits hf
  obtain ⟨t', w, m, b, ph, s, f, ch⟩ := a
  have hty : t' = t := hty
  subst hty
  cases c with
  | beginMap =>
    simp only [Frame.call, Calls.beginMap, Frame.why, Frame.ty]
    cases hsh : t'.shape with
    | struct fs =>
      refine ⟨fun e a' he => ?_, fun a' _ => ⟨rfl, not_wrong rfl (by simp only [suits, hsh]) (by simp)⟩⟩
      simp only at he
      split at he <;> cases he
    | _ =>
      refine ⟨fun e a' he => ?_, fun a' he => by cases he⟩
      cases he
      exact ⟨_, rfl, rfl, wrong_kind (by simp only [suits, hsh]) (by simp) (by simp)⟩
  | beginList n =>
    simp only [Frame.call, Calls.beginList, Frame.why, Frame.ty]
    cases hsh : t'.shape with
    | list e =>
      refine ⟨fun e a' he => ?_, fun a' _ => ⟨rfl, not_wrong rfl (by simp only [suits, hsh]) (by simp)⟩⟩
      simp only at he
      split at he <;> cases he
    | _ =>
      refine ⟨fun e a' he => ?_, fun a' he => by cases he⟩
      cases he
      exact ⟨_, rfl, rfl, wrong_kind (by simp only [suits, hsh]) (by simp) (by simp)⟩
  | assignNull =>
    simp only [Frame.call, Calls.assignNull, Frame.why]
    split
    · refine ⟨fun e a' he => ?_, fun a' he => by cases he⟩
      cases he
      exact ⟨_, rfl, rfl, rfl, nullName_eq repr t'⟩
    · exact ⟨fun e a' he => (by cases he), fun a' he => by cases he⟩
  | assignOther =>
    refine ⟨fun e a' he => ?_, fun a' he => by cases he⟩
    cases he
    exact ⟨_, rfl, rfl, wrong_kind rfl (by simp) (by simp)⟩
  | assignString x =>
    simp only [Frame.call, Calls.assignString, Frame.why, Frame.ty]
    cases hsh : t'.shape with
    | text =>
      refine ⟨fun e a' he => ?_, fun a' _ => ⟨rfl, not_wrong rfl (by simp only [suits, hsh]) (by simp)⟩⟩
      simp only at he
      split at he <;> cases he
    | _ =>
      refine ⟨fun e a' he => ?_, fun a' he => by cases he⟩
      cases he
      exact ⟨_, rfl, rfl, wrong_kind (by simp only [suits, hsh]) (by simp) (by simp)⟩
  | assignLink x =>
    simp only [Frame.call, Calls.assignLink, Frame.why, Frame.ty]
    cases hsh : t'.shape with
    | link =>
      refine ⟨fun e a' he => ?_, fun a' _ => ⟨rfl, not_wrong rfl (by simp only [suits, hsh]) (by simp)⟩⟩
      simp only at he
      split at he <;> cases he
    | _ =>
      refine ⟨fun e a' he => ?_, fun a' he => by cases he⟩
      cases he
      exact ⟨_, rfl, rfl, wrong_kind (by simp only [suits, hsh]) (by simp) (by simp)⟩
  | assignSelf u v =>
    simp only [Frame.call, Calls.assignSelf, Frame.why]
    refine ⟨fun e a' he => ?_, fun a' _ => ⟨trivial, not_wrong rfl rfl (by simp)⟩⟩
    split at he
    · cases he
    · split at he <;> cases he
  | assembleEntry k =>
    simp only [Frame.call, Frame.why]
    split
    case isFalse => exact ⟨fun e a' he => (by cases he), fun a' he => by cases he⟩
    rename_i hb
    simp only [Calls.assembleEntry, Frame.ty]
    cases hsh : t'.shape with
    | struct fs =>
      simp only
      cases hr : ready (.mk t' w m b ph s f ch) with
      | none => exact ⟨fun e a' he => (by cases he), fun a' he => by cases he⟩
      | some a1 =>
        obtain ⟨ht1, l, hbits, hks⟩ := ready_keys hsh hb hr
        obtain ⟨t1, w1, m1, b1, ph1, s1, f1, c1⟩ := a1
        have hk := keyWhy_told hsh hks repr (k := k) (c := .assembleEntry k) rfl rfl (by simp)
        simp only [Frame.s]
        cases htk : takeKey fs k s1 with
        | ok p =>
          refine ⟨fun e a' he => (by cases he), fun a' _ => hk.2 p htk⟩
        | err e' =>
          refine ⟨fun e a' he => ?_, fun a' he => by cases he⟩
          cases he
          exact hk.1 e' htk
        | panic => exact ⟨fun e a' he => (by cases he), fun a' he => by cases he⟩
    | _ => exact ⟨fun e a' he => (by cases he), fun a' he => by cases he⟩
  | assembleKey =>
    refine ⟨fun e a' he => ?_, fun a' _ => ⟨rfl, not_wrong rfl rfl (by simp)⟩⟩
    simp only [Frame.call, Calls.assembleKey] at he
    (repeat' split at he) <;> cases he
  | keyAssign k =>
    simp only [Frame.call, Frame.why]
    split
    case isFalse => exact ⟨fun e a' he => (by cases he), fun a' he => by cases he⟩
    rename_i hb
    simp only [Calls.keyAssign, Frame.ty, Frame.ph, Frame.s]
    cases hsh : t'.shape with
    | struct fs =>
      simp only
      split
      · exact ⟨fun e a' he => (by cases he), fun a' he => by cases he⟩
      rename_i hph
      have hph : ph = .midKey := Decidable.not_not.1 hph
      subst hph
      have hks : ∀ i fd, FieldAt fs i fd → (fd.name ∈ keysAt 0 cs ↔ s.testBit i = true) := by
        cases h with
        | done b ph s f hm hph => cases hph hb
        | structKey h s f he hbits =>
          rw [hsh] at h; cases h
          intro i fd hf
          rw [keysAt_eq, keysFrom_begin _ _ rfl, keysFrom_append]
          exact named_iff hsh he hbits hf
      have hk := keyWhy_told hsh hks repr (k := k) (c := .keyAssign k) rfl rfl (by simp)
      cases htk : takeKey fs k s with
      | ok p =>
        refine ⟨fun e a' he => (by cases he), fun a' _ => hk.2 p htk⟩
      | err e' =>
        refine ⟨fun e a' he => ?_, fun a' he => by cases he⟩
        cases he
        exact hk.1 e' htk
      | panic => exact ⟨fun e a' he => (by cases he), fun a' he => by cases he⟩
    | _ => exact ⟨fun e a' he => (by cases he), fun a' he => by cases he⟩
  | keyAssignOther =>
    simp only [Frame.call, Frame.why]
    split
    case isFalse => exact ⟨fun e a' he => (by cases he), fun a' he => by cases he⟩
    simp only [Calls.keyAssignOther, Frame.ty]
    cases hsh : t'.shape with
    | struct fs =>
      refine ⟨fun e a' he => ?_, fun a' he => by cases he⟩
      cases he
      exact ⟨_, rfl, rfl, rfl, keyName_eq repr hsh⟩
    | _ => exact ⟨fun e a' he => (by cases he), fun a' he => by cases he⟩
  | assembleValue =>
    refine ⟨fun e a' he => ?_, fun a' _ => ⟨rfl, not_wrong rfl rfl (by simp)⟩⟩
    simp only [Frame.call, Calls.assembleValue] at he
    (repeat' split at he) <;> cases he
  | finish =>
    simp only [Frame.call, Frame.why]
    split
    case isFalse => exact ⟨fun e a' he => (by cases he), fun a' he => by cases he⟩
    rename_i hb
    simp only [Calls.finish, Frame.ty]
    cases hsh : t'.shape with
    | struct fs =>
      simp only
      cases hr : ready (.mk t' w m b ph s f ch) with
      | none => exact ⟨fun e a' he => (by cases he), fun a' he => by cases he⟩
      | some a1 =>
        obtain ⟨ht1, l, hbits, hks⟩ := ready_keys hsh hb hr
        obtain ⟨t1, w1, m1, b1, ph1, s1, f1, c1⟩ := a1
        have hg := allGiven_iff hsh hbits hks
        have hm := missing_eq hsh hks
        have hsuf := sufficient_iff (fs := fs) hbits
        simp only [Frame.s] at hm hsuf hg
        simp only
        by_cases hne : s1 &&& sufficient fs ≠ sufficient fs
        · rw [if_pos hne, if_pos (c := (Frame.mk t1 w1 m1 b1 ph1 s1 f1 c1).s &&& sufficient fs ≠ sufficient fs) hne]
          refine ⟨fun e a' he => ?_, fun a' he => by cases he⟩
          cases he
          refine ⟨_, rfl, rfl, rfl, hm, ?_⟩
          intro h0
          exact hne (hsuf.2 (hg.2 (hm.symm.trans h0)))
        · rw [if_neg hne, if_neg (c := (Frame.mk t1 w1 m1 b1 ph1 s1 f1 c1).s &&& sufficient fs ≠ sufficient fs) hne]
          refine ⟨fun e a' he => (by cases he), fun a' _ => ⟨rfl, fun x => ?_⟩⟩
          have h0 := hg.1 (hsuf.1 (Decidable.not_not.1 hne))
          cases x with
          | wrongKind n => rintro ⟨h1, _⟩; cases h1
          | invalidKey n k' => rintro ⟨h1, _⟩; cases h1
          | repeatedKey k' => rintro ⟨h1, _⟩; cases h1
          | missing ns => rintro ⟨_, h1, h2⟩; exact h2 (h1.trans h0)
    | list e =>
      simp only
      refine ⟨fun e a' he => ?_, fun a' _ => ⟨trivial, fun x => ?_⟩⟩
      · split at he <;> cases he
      · cases x with
        | wrongKind n => rintro ⟨h1, _⟩; cases h1
        | invalidKey n k' => rintro ⟨h1, _⟩; cases h1
        | repeatedKey k' => rintro ⟨h1, _⟩; cases h1
        | missing ns =>
          rintro ⟨_, h1, h2⟩
          exact h2 (h1.trans (by simp only [stillMissing, fieldsOf, hsh, List.filter_nil, List.map_nil]))
    | _ => exact ⟨fun e a' he => (by cases he), fun a' he => by cases he⟩

/-- A call on any handle. -/
theorem callAt_told {t : T} {a : Frame} {cs : List (Nat × Call)} (h : Partial t a cs) (repr : Bool)
    (d : Nat) (c : Call) :
    (∀ e a', a.callAt d c = .err e a' →
      ∃ u x, typeAt t cs d = some u ∧ a.whyAt repr d c = some x ∧ x.err = e ∧ Wrong repr u (keysAt d cs) c x) ∧
    (∀ a', a.callAt d c = .ok a' →
      ∃ u, typeAt t cs d = some u ∧ a.whyAt repr d c = none ∧ ∀ x, ¬ Wrong repr u (keysAt d cs) c x) := by
  induction d generalizing t a cs with
  | zero =>
    have := call_told h repr c
    refine ⟨fun e a' he => ?_, fun a' he => ?_⟩
    · obtain ⟨x, hx⟩ := this.1 e a' he
      exact ⟨t, x, rfl, hx⟩
    · exact ⟨t, rfl, this.2 a' he⟩
  | succ d ih =>
    simp only [Frame.callAt, Frame.whyAt]
    cases hch : a.child with
    | none => exact ⟨fun e a' he => (by cases he), fun a' he => by cases he⟩
    | some ch =>
      obtain ⟨u, c', hp, hu, hk⟩ := partial_child h hch
      rw [typeAt_shift hu hk d, hk d]
      have := ih hp
      simp only
      refine ⟨fun e a' he => ?_, fun a' he => ?_⟩
      · split at he
        · cases he
        · rename_i hc
          cases he
          exact this.1 _ _ hc
        · cases he
        · cases he
      · split at he
        · rename_i hc
          exact this.2 _ hc
        · cases he
        · cases he
        · cases he

end Verif
