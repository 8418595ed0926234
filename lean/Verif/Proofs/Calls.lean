import Verif.Spec.Calls
import Verif.Proofs.Assemble

/-! Lemmas about call sequences on builders. -/

namespace Verif

open Spec Calls

theorem deeper_append (a b : List (Nat × Call)) : deeper (a ++ b) = deeper a ++ deeper b := by
  simp [deeper]

/-- The bits say which fields have been given. -/
def Bits (s : Nat) (l : List (Option Val)) : Prop :=
  ∀ i : Nat, s.testBit i = true ↔ ∃ v : Val, l[i]? = some (some v)

theorem bits_zero (fs : List FieldT) : Bits 0 (fs.map fun _ => none) := by
  intro i
  simp [List.getElem?_map]

theorem bits_add {s : Nat} {l : List (Option Val)} (h : Bits s l) {i : Nat} (hi : l[i]? = some none)
    (v : Val) : Bits (s + 1 <<< i) (l.set i (some v)) := by
  have hb : s.testBit i = false := by
    cases hs : s.testBit i with
    | false => rfl
    | true => obtain ⟨v, hv⟩ := (h i).1 hs; rw [hi] at hv; cases hv
  have hlt : i < l.length := by
    rcases Nat.lt_or_ge i l.length with h | h
    · exact h
    · rw [List.getElem?_eq_none h] at hi; cases hi
  intro j
  rw [Nat.one_shiftLeft, testBit_add_two_pow _ _ _ hb]
  by_cases hij : i = j
  · subst hij
    simp [hlt]
  · rw [List.getElem?_set_ne hij]
    simp [hij, h j]

theorem sufficientFrom_bit (l : List FieldT) (i j : Nat) :
    (Calls.sufficientFrom i l).testBit j = (decide (i ≤ j) && ((l[j - i]?).map FieldT.required).getD false) := by
  have := sufficientFrom_testBit (W := Unit) (l.map fun f => ⟨f.name, f.required, fun _ _ => .panic⟩) i j
  have e : ∀ (l : List FieldT) i, Verif.sufficientFrom (W := Unit) i
      (l.map fun f => ⟨f.name, f.required, fun _ _ => .panic⟩) = Calls.sufficientFrom i l := by
    intro l
    induction l with
    | nil => intro i; rfl
    | cons f r ih => intro i; simp only [List.map_cons, Verif.sufficientFrom, Calls.sufficientFrom, ih]
  rw [e] at this
  rw [this, List.getElem?_map]
  cases l[j - i]? <;> rfl

theorem sufficient_iff {fs : List FieldT} {l : List (Option Val)} {s : Nat} (h : Bits s l) :
    (s &&& sufficient fs = sufficient fs) ↔ AllGiven fs l := by
  have hb : ∀ j, (sufficient fs).testBit j = ((fs[j]?).map FieldT.required).getD false := by
    intro j
    unfold sufficient
    rw [sufficientFrom_bit]
    simp
  constructor
  · intro he i fd hf hr
    have := congrArg (fun x => Nat.testBit x i) he
    have hf' : fs[i]? = some fd := hf
    simp only [Nat.testBit_and, hb, hf', Option.map_some, Option.getD_some, hr, Bool.and_true] at this
    exact (h i).1 this
  · intro hg
    refine Nat.eq_of_testBit_eq fun j => ?_
    rw [Nat.testBit_and, hb]
    cases hf : fs[j]? with
    | none => simp
    | some fd =>
      cases hr : fd.required with
      | false => simp [hr]
      | true => simp [hr, (h j).2 (hg j fd hf hr)]

theorem entries_length {fs : List FieldT} {l : List (Option Val)} {cs : List (Nat × Call)}
    (h : Entries fs l cs) : l.length = fs.length := by
  exact Entries.rec (motive_1 := fun _ _ _ _ => True) (motive_2 := fun _ _ _ _ => True)
    (motive_3 := fun fs l _ _ => l.length = fs.length)
    (by intros; trivial) (by intros; trivial) (by intros; trivial) (by intros; trivial)
    (by intros; trivial) (by intros; trivial) (by intros; trivial)
    (by intros; simp) (by intros; simp_all) h

/-- A finished assembler was begun, or is that of a scalar, or was given whole. -/
def Opened (t : T) (b : Bool) (cs : List (Nat × Call)) : Prop :=
  b = true ∨ (t.shape = .text ∨ t.shape = .link) ∨ ∃ v, cs = [(0, .assignSelf t v)]

/-- How far the calls `cs` have brought an assembler of type `t`. -/
inductive Partial : T → Frame → List (Nat × Call) → Prop where
  | idle (t : T) : Partial t (fresh t) []
  | done {t : T} {v : Val} {cs : List (Nat × Call)} (b : Bool) (ph : MaState) (s f : Nat) :
      Makes t v cs → (b = true → ph = .finished) → Opened t b cs → Partial t (.mk t v .value b ph s f none) cs
  | listIdle {t e : T} (h : t.shape = .list e) (n : Int) {vs : List Val} {cs : List (Nat × Call)}
      (s f : Nat) :
      Elems e vs cs → Partial t (.mk t (.list vs) .midvalue true .initial s f none) ((0, .beginList n) :: cs)
  | listMid {t e : T} (h : t.shape = .list e) (n : Int) {vs : List Val} {cs : List (Nat × Call)}
      (s f : Nat) {ch : Frame} {c : List (Nat × Call)} :
      Elems e vs cs → Partial e ch c →
      Partial t (.mk t (.list vs) .midvalue true .midValue s f (some ch))
        ((0, .beginList n) :: (cs ++ (0, .assembleValue) :: deeper c))
  | structIdle {t : T} {fs : List FieldT} (h : t.shape = .struct fs) {l : List (Option Val)}
      {cs : List (Nat × Call)} (s f : Nat) :
      Entries fs l cs → Bits s l →
      Partial t (.mk t (.struct l) .midvalue true .initial s f none) ((0, .beginMap) :: cs)
  | structKey {t : T} {fs : List FieldT} (h : t.shape = .struct fs) {l : List (Option Val)}
      {cs : List (Nat × Call)} (s f : Nat) :
      Entries fs l cs → Bits s l →
      Partial t (.mk t (.struct l) .midvalue true .midKey s f none)
        ((0, .beginMap) :: (cs ++ [(0, .assembleKey)]))
  | structExpect {t : T} {fs : List FieldT} (h : t.shape = .struct fs) {l : List (Option Val)}
      {cs : List (Nat × Call)} (s f : Nat) {fd : FieldT} :
      Entries fs l cs → Bits s l → FieldAt fs f fd → l[f]? = some none →
      Partial t (.mk t (.struct l) .midvalue true .expectValue (s + 1 <<< f) f none)
        ((0, .beginMap) :: (cs ++ [(0, .assembleKey), (0, .keyAssign fd.name)]))
  | structMid {t : T} {fs : List FieldT} (h : t.shape = .struct fs) {l : List (Option Val)}
      {cs : List (Nat × Call)} (s f : Nat) {fd : FieldT} {nm : List (Nat × Call)} {ch : Frame}
      {c : List (Nat × Call)} :
      Entries fs l cs → Bits s l → FieldAt fs f fd → l[f]? = some none → Names fd.name nm →
      Partial fd.ty ch c →
      Partial t (.mk t (.struct l) .midvalue true .midValue (s + 1 <<< f) f (some ch))
        ((0, .beginMap) :: (cs ++ nm ++ deeper c))

theorem partial_ty {t : T} {a : Frame} {cs : List (Nat × Call)} (h : Partial t a cs) : a.ty = t := by
  cases h <;> rfl

/-- A child that says it is finished has a complete value. -/
theorem partial_value {t : T} {a : Frame} {cs : List (Nat × Call)} (h : Partial t a cs)
    (hm : a.m = .value) : Makes t a.w cs := by
  cases h with
  | done b ph s f hm' _ => exact hm'
  | _ => cases hm

theorem ready_struct {t : T} {a a' : Frame} {cs : List (Nat × Call)} {fs : List FieldT}
    (h : Partial t a cs) (ht : t.shape = .struct fs) (hb : a.begun = true) (hr : ready a = some a') :
    ∃ l es s f, a' = .mk t (.struct l) .midvalue true .initial s f none ∧ Entries fs l es ∧ Bits s l ∧
      cs = (0, .beginMap) :: es := by
  cases h with
  | idle => cases hb
  | done b ph s f hm hph =>
    rw [hph hb] at hr; cases hr
  | listIdle h => rw [ht] at h; cases h
  | listMid h => rw [ht] at h; cases h
  | structIdle h s f he hbits =>
    rw [ht] at h; cases h
    cases hr
    exact ⟨_, _, _, _, rfl, he, hbits, rfl⟩
  | structKey => cases hr
  | structExpect => cases hr
  | structMid h s f he hbits hf hl hn hc =>
    rw [ht] at h; cases h
    simp only [ready] at hr
    split at hr
    · rename_i hv
      cases hr
      exact ⟨_, _, _, _, rfl, .snoc he hf hl hn (partial_value hc hv), bits_add hbits hl _, rfl⟩
    · cases hr

theorem ready_list {t e : T} {a a' : Frame} {cs : List (Nat × Call)}
    (h : Partial t a cs) (ht : t.shape = .list e) (hb : a.begun = true) (hr : ready a = some a') :
    ∃ vs es n s f, a' = .mk t (.list vs) .midvalue true .initial s f none ∧ Elems e vs es ∧
      cs = (0, .beginList n) :: es := by
  cases h with
  | idle => cases hb
  | done b ph s f hm hph =>
    rw [hph hb] at hr; cases hr
  | listIdle h n s f he =>
    rw [ht] at h; cases h
    cases hr
    exact ⟨_, _, _, _, _, rfl, he, rfl⟩
  | listMid h n s f he hc =>
    rw [ht] at h; cases h
    simp only [ready] at hr
    split at hr
    · rename_i hv
      cases hr
      exact ⟨_, _, _, _, _, rfl, .snoc he (partial_value hc hv), rfl⟩
    · cases hr
  | structIdle h => rw [ht] at h; cases h
  | structKey h => rw [ht] at h; cases h
  | structExpect h => rw [ht] at h; cases h
  | structMid h => rw [ht] at h; cases h

theorem takeKey_ok {fs : List FieldT} {k : Bytes} {s i : Nat} {fd : FieldT}
    (h : takeKey fs k s = .ok (i, fd)) : FieldAt fs i fd ∧ fd.name = k ∧ s.testBit i = false := by
  unfold takeKey at h
  split at h
  · cases h
  · rename_i j hj
    split at h
    · cases h
    · rename_i hb
      split at h
      · rename_i fd' hf
        cases h
        refine ⟨hf, ?_, ?_⟩
        · unfold Calls.find at hj
          obtain ⟨hlt, hp, _⟩ := List.findIdx?_eq_some_iff_getElem.1 hj
          rw [List.getElem?_eq_getElem hlt] at hf
          cases hf
          exact of_decide_eq_true hp
        · cases hs : s.testBit i with
          | false => rfl
          | true => exact absurd ((and_bit_ne_zero s i).2 hs) hb
      · cases h

theorem free_of_bits {fs : List FieldT} {l : List (Option Val)} {es : List (Nat × Call)} {s i : Nat}
    {fd : FieldT} (he : Entries fs l es) (hb : Bits s l) (hf : FieldAt fs i fd)
    (hs : s.testBit i = false) : l[i]? = some none := by
  have hlt : i < l.length := by
    rw [entries_length he]
    rcases Nat.lt_or_ge i fs.length with h | h
    · exact h
    · have hf' : fs[i]? = some fd := hf
      rw [List.getElem?_eq_none h] at hf'; cases hf'
  rw [List.getElem?_eq_getElem hlt]
  cases hv : l[i] with
  | none => rfl
  | some v =>
    have := (hb i).2 ⟨v, by rw [List.getElem?_eq_getElem hlt, hv]⟩
    rw [hs] at this; cases this

theorem fresh_eq {t : T} : fresh t = .mk t t.zero .absent false .initial 0 0 none := rfl

theorem zero_list {t e : T} (h : t.shape = .list e) : t.zero = .list [] := by
  unfold T.zero; rw [h]

theorem zero_struct {t : T} {fs : List FieldT} (h : t.shape = .struct fs) :
    t.zero = .struct (fs.map fun _ => none) := by
  unfold T.zero; rw [h]

/-- Only a fresh assembler has its mark absent. -/
theorem partial_absent {t : T} {a : Frame} {cs : List (Nat × Call)} (h : Partial t a cs)
    (hm : a.m = .absent) : a = fresh t ∧ cs = [] := by
  cases h with
  | idle => exact ⟨rfl, rfl⟩
  | _ => cases hm

/-- The mark of a scalar is absent or set. -/
theorem partial_scalar {t : T} {a : Frame} {cs : List (Nat × Call)} (h : Partial t a cs)
    (hs : t.shape = .text ∨ t.shape = .link) (hm : a.m ≠ .value) : a = fresh t ∧ cs = [] := by
  cases h with
  | idle => exact ⟨rfl, rfl⟩
  | done => exact absurd rfl hm
  | listIdle h => rcases hs with hs | hs <;> · rw [hs] at h; cases h
  | listMid h => rcases hs with hs | hs <;> · rw [hs] at h; cases h
  | structIdle h => rcases hs with hs | hs <;> · rw [hs] at h; cases h
  | structKey h => rcases hs with hs | hs <;> · rw [hs] at h; cases h
  | structExpect h => rcases hs with hs | hs <;> · rw [hs] at h; cases h
  | structMid h => rcases hs with hs | hs <;> · rw [hs] at h; cases h

/-- A call on the assembler's own handle that returns no error. -/
theorem call_ok {t : T} {a a' : Frame} {cs : List (Nat × Call)} {c : Call} (h : Partial t a cs)
    (hc : a.call c = .ok a') : Partial t a' (cs ++ [(0, c)]) := by
  have hty := partial_ty h
  cases c with
  | beginMap =>
    simp only [Frame.call, Calls.beginMap] at hc
    split at hc
    rename_i t' w m b ph s f ch
    have hty : t' = t := hty
    subst hty
    split at hc
    · rename_i fs hsh
      split at hc
      · rename_i hm
        obtain ⟨rfl', rfl⟩ := partial_absent h hm
        cases hc
        cases rfl'
        rw [show (T.zero t') = .struct _ from zero_struct hsh]
        exact .structIdle hsh 0 0 .nil (bits_zero fs)
      · cases hc
    · cases hc
  | beginList n =>
    simp only [Frame.call, Calls.beginList] at hc
    split at hc
    rename_i t' w m b ph s f ch
    have hty : t' = t := hty
    subst hty
    split at hc
    · rename_i e hsh
      split at hc
      · rename_i hm
        obtain ⟨rfl', rfl⟩ := partial_absent h hm
        cases rfl'
        rw [show (T.zero t') = .list _ from zero_list hsh, ite_self] at hc
        cases hc
        exact .listIdle hsh n 0 0 .nil
      · cases hc
    · cases hc
  | assignNull =>
    simp only [Frame.call, Calls.assignNull] at hc
    split at hc <;> cases hc
  | assignOther => cases hc
  | assignString x =>
    simp only [Frame.call, Calls.assignString] at hc
    split at hc
    rename_i t' w m b ph s f ch
    have hty : t' = t := hty
    subst hty
    split at hc
    · rename_i hsh
      split at hc
      · cases hc
      · rename_i hm
        obtain ⟨rfl', rfl⟩ := partial_scalar h (Or.inl hsh) hm
        cases rfl'
        cases hc
        exact .done _ _ _ _ (.text hsh x) (fun h => by cases h) (Or.inr (Or.inl (Or.inl hsh)))
    · cases hc
  | assignLink x =>
    simp only [Frame.call, Calls.assignLink] at hc
    split at hc
    rename_i t' w m b ph s f ch
    have hty : t' = t := hty
    subst hty
    split at hc
    · rename_i hsh
      split at hc
      · cases hc
      · rename_i hm
        obtain ⟨rfl', rfl⟩ := partial_scalar h (Or.inr hsh) hm
        cases rfl'
        cases hc
        exact .done _ _ _ _ (.link hsh x) (fun h => by cases h) (Or.inr (Or.inl (Or.inr hsh)))
    · cases hc
  | assignSelf u v =>
    simp only [Frame.call, Calls.assignSelf] at hc
    split at hc
    rename_i t' w m b ph s f ch
    have hty : t' = t := hty
    subst hty
    split at hc
    · cases hc
    rename_i hu
    have hu : u = t' := Decidable.not_not.1 hu
    subst hu
    split at hc
    · rename_i hm
      obtain ⟨rfl', rfl⟩ := partial_absent h hm
      cases rfl'
      cases hc
      exact .done _ _ _ _ (.whole v) (fun h => by cases h) (Or.inr (Or.inr ⟨v, rfl⟩))
    · cases hc
  | assembleEntry k =>
    simp only [Frame.call] at hc
    split at hc
    · rename_i hb
      unfold Calls.assembleEntry at hc
      rw [hty] at hc
      split at hc
      · rename_i fs hsh
        split at hc
        · cases hc
        · rename_i hr
          obtain ⟨l, es, s', f', he, hes, hbits, rfl⟩ := ready_struct h hsh hb hr
          cases he
          split at hc
          · rename_i i fd hk
            obtain ⟨hf, rfl, hbit⟩ := takeKey_ok hk
            cases hc
            have := Partial.structMid hsh _ i hes hbits hf (free_of_bits hes hbits hf hbit) .entry (.idle fd.ty)
            simpa [deeper] using this
          · cases hc
          · cases hc
      · cases hc
    · cases hc
  | assembleKey =>
    simp only [Frame.call] at hc
    split at hc
    · rename_i hb
      unfold Calls.assembleKey at hc
      rw [hty] at hc
      split at hc
      · rename_i fs hsh
        split at hc
        · cases hc
        · rename_i hr
          obtain ⟨l, es, s', f', he, hes, hbits, rfl⟩ := ready_struct h hsh hb hr
          cases he
          cases hc
          exact .structKey hsh _ _ hes hbits
      · cases hc
    · cases hc
  | keyAssign k =>
    simp only [Frame.call] at hc
    split at hc
    · rename_i hb
      unfold Calls.keyAssign at hc
      split at hc
      rename_i t' w m b ph s f ch
      have hty : t' = t := hty
      subst hty
      split at hc
      · rename_i fs hsh
        split at hc
        · cases hc
        · rename_i hph
          have hph : ph = .midKey := Decidable.not_not.1 hph
          subst hph
          cases h with
          | done b ph s f hm hph => cases hph hb
          | structKey h s f he hbits =>
            rw [hsh] at h; cases h
            split at hc
            · rename_i i fd hk
              obtain ⟨hf, rfl, hbit⟩ := takeKey_ok hk
              cases hc
              have := Partial.structExpect hsh s i he hbits hf (free_of_bits he hbits hf hbit)
              simpa using this
            · cases hc
            · cases hc
      · cases hc
    · cases hc
  | keyAssignOther =>
    simp only [Frame.call, Calls.keyAssignOther] at hc
    split at hc
    · split at hc <;> cases hc
    · cases hc
  | assembleValue =>
    simp only [Frame.call] at hc
    split at hc
    · rename_i hb
      unfold Calls.assembleValue at hc
      rw [hty] at hc
      split at hc
      · rename_i fs hsh
        split at hc
        · rename_i t' w m b s f ch
          have hty : t' = t := hty
          subst hty
          cases h with
          | done b ph s f hm hph => cases hph hb
          | structExpect h s f he hbits hf hl =>
            rw [hsh] at h; cases h
            rw [show fs[f]? = some _ from hf] at hc
            cases hc
            have := Partial.structMid hsh s f he hbits hf hl .keyValue (.idle _)
            simpa [deeper] using this
        · cases hc
      · rename_i e hsh
        split at hc
        · cases hc
        · rename_i hr
          obtain ⟨vs, es, n, s', f', he, hes, rfl⟩ := ready_list h hsh hb hr
          cases he
          cases hc
          exact .listMid hsh n _ _ hes (.idle e)
      · cases hc
    · cases hc
  | finish =>
    simp only [Frame.call] at hc
    split at hc
    · rename_i hb
      unfold Calls.finish at hc
      rw [hty] at hc
      split at hc
      · rename_i fs hsh
        split at hc
        · cases hc
        · rename_i hr
          obtain ⟨l, es, s', f', he, hes, hbits, rfl⟩ := ready_struct h hsh hb hr
          cases he
          split at hc
          · cases hc
          · rename_i hs
            cases hc
            exact .done _ _ _ _ (.struct hsh hes ((sufficient_iff hbits).1 (Decidable.not_not.1 hs)))
              (fun _ => rfl) (Or.inl rfl)
      · rename_i e hsh
        split at hc
        · cases hc
        · rename_i hr
          obtain ⟨vs, es, n, s', f', he, hes, rfl⟩ := ready_list h hsh hb hr
          cases he
          cases hc
          exact .done _ _ _ _ (.list hsh n hes) (fun _ => rfl) (Or.inl rfl)
      · cases hc
    · cases hc

/-- A call on the assembler's own handle that returns an error. -/
theorem call_err {t : T} {a a' : Frame} {cs : List (Nat × Call)} {c : Call} {e : Err}
    (h : Partial t a cs) (hc : a.call c = .err e a') : Partial t a' cs := by
  have hty := partial_ty h
  cases c with
  | beginMap =>
    simp only [Frame.call, Calls.beginMap] at hc
    split at hc
    split at hc
    · split at hc <;> cases hc
    · cases hc; exact h
  | beginList n =>
    simp only [Frame.call, Calls.beginList] at hc
    split at hc
    split at hc
    · split at hc <;> cases hc
    · cases hc; exact h
  | assignNull =>
    simp only [Frame.call, Calls.assignNull] at hc
    split at hc <;> cases hc
    exact h
  | assignOther => cases hc; exact h
  | assignString x =>
    simp only [Frame.call, Calls.assignString] at hc
    split at hc
    split at hc
    · split at hc <;> cases hc
    · cases hc; exact h
  | assignLink x =>
    simp only [Frame.call, Calls.assignLink] at hc
    split at hc
    split at hc
    · split at hc <;> cases hc
    · cases hc; exact h
  | assignSelf u v =>
    simp only [Frame.call, Calls.assignSelf] at hc
    split at hc
    split at hc
    · cases hc
    split at hc <;> cases hc
  | assembleEntry k =>
    simp only [Frame.call] at hc
    split at hc
    · rename_i hb
      unfold Calls.assembleEntry at hc
      rw [hty] at hc
      split at hc
      · rename_i fs hsh
        split at hc
        · cases hc
        · rename_i hr
          obtain ⟨l, es, s', f', he, hes, hbits, rfl⟩ := ready_struct h hsh hb hr
          cases he
          split at hc
          · cases hc
          · cases hc
            exact .structIdle hsh _ _ hes hbits
          · cases hc
      · cases hc
    · cases hc
  | assembleKey =>
    simp only [Frame.call] at hc
    split at hc
    · unfold Calls.assembleKey at hc
      split at hc
      · split at hc <;> cases hc
      · cases hc
    · cases hc
  | keyAssign k =>
    simp only [Frame.call] at hc
    split at hc
    · unfold Calls.keyAssign at hc
      split at hc
      split at hc
      · split at hc
        · cases hc
        · split at hc <;> cases hc
          exact h
      · cases hc
    · cases hc
  | keyAssignOther =>
    simp only [Frame.call, Calls.keyAssignOther] at hc
    split at hc
    · split at hc <;> cases hc
      exact h
    · cases hc
  | assembleValue =>
    simp only [Frame.call] at hc
    split at hc
    · unfold Calls.assembleValue at hc
      split at hc
      · split at hc
        · split at hc <;> cases hc
        · cases hc
      · split at hc <;> cases hc
      · cases hc
    · cases hc
  | finish =>
    simp only [Frame.call] at hc
    split at hc
    · rename_i hb
      unfold Calls.finish at hc
      rw [hty] at hc
      split at hc
      · rename_i fs hsh
        split at hc
        · cases hc
        · rename_i hr
          obtain ⟨l, es, s', f', he, hes, hbits, rfl⟩ := ready_struct h hsh hb hr
          cases he
          split at hc
          · cases hc
            exact .structIdle hsh _ _ hes hbits
          · cases hc
      · split at hc <;> cases hc
      · cases hc
    · cases hc

theorem callAt_inv {t : T} {a : Frame} {cs : List (Nat × Call)} (h : Partial t a cs) (d : Nat) (c : Call) :
    (∀ a', a.callAt d c = .ok a' → Partial t a' (cs ++ [(d, c)])) ∧
    (∀ e a', a.callAt d c = .err e a' → Partial t a' cs) := by
  induction d generalizing t a cs with
  | zero => exact ⟨fun a' => call_ok h, fun e a' => call_err h⟩
  | succ d ih =>
    constructor
    · intro a' hc
      simp only [Frame.callAt] at hc
      split at hc
      · cases hc
      · rename_i ch hch
        split at hc
        · rename_i ch' hcc
          cases hc
          cases h with
          | listMid h n s f he hp =>
            cases hch
            have := Partial.listMid h n s f he ((ih hp).1 _ hcc)
            simpa [deeper, Frame.setChild] using this
          | structMid h s f he hbits hf hl hn hp =>
            cases hch
            have := Partial.structMid h s f he hbits hf hl hn ((ih hp).1 _ hcc)
            simpa [deeper, Frame.setChild] using this
          | _ => cases hch
        · cases hc
        · cases hc
        · cases hc
    · intro e a' hc
      simp only [Frame.callAt] at hc
      split at hc
      · cases hc
      · rename_i ch hch
        split at hc
        · cases hc
        · rename_i ch' hcc
          cases hc
          cases h with
          | listMid h n s f he hp =>
            cases hch
            exact Partial.listMid h n s f he ((ih hp).2 _ _ hcc)
          | structMid h s f he hbits hf hl hn hp =>
            cases hch
            exact Partial.structMid h s f he hbits hf hl hn ((ih hp).2 _ _ hcc)
          | _ => cases hch
        · cases hc
        · cases hc

theorem play_inv {t : T} {a a' : Frame} {pre cs good : List (Nat × Call)} (h : Partial t a pre)
    (hp : play a cs = some (a', good)) : Partial t a' (pre ++ good) := by
  induction cs generalizing a pre good with
  | nil => cases hp; simpa using h
  | cons x r ih =>
    obtain ⟨d, c⟩ := x
    simp only [play] at hp
    split at hp
    · rename_i a1 hc
      cases hr : play a1 r with
      | none => rw [hr] at hp; cases hp
      | some q =>
        obtain ⟨a2, g⟩ := q
        rw [hr] at hp
        cases hp
        have := ih ((callAt_inv h d c).1 _ hc) hr
        simpa using this
    · rename_i hc
      exact ih ((callAt_inv h d c).2 _ _ hc) hp
    · cases hp
    · cases hp

theorem play_append (a : Frame) (xs ys : List (Nat × Call)) :
    play a (xs ++ ys) =
      (play a xs).bind fun p => (play p.1 ys).map fun q => (q.1, p.2 ++ q.2) := by
  induction xs generalizing a with
  | nil =>
    simp only [List.nil_append, play, Option.bind_some]
    cases play a ys <;> rfl
  | cons x r ih =>
    obtain ⟨d, c⟩ := x
    simp only [List.cons_append, play]
    cases a.callAt d c with
    | ok a' =>
      simp only [ih]
      cases play a' r with
      | none => rfl
      | some p =>
        simp only [Option.bind_some, Option.map_some]
        cases play p.1 ys <;> rfl
    | err e a' => simp only [ih]
    | panic => rfl
    | noHandle => rfl

theorem play_append_ok {a b c : Frame} {xs ys : List (Nat × Call)} (h1 : play a xs = some (b, xs))
    (h2 : play b ys = some (c, ys)) : play a (xs ++ ys) = some (c, xs ++ ys) := by
  rw [play_append, h1, Option.bind_some, h2]; rfl

theorem setChild_child (a ch : Frame) : (a.setChild ch).child = some ch := by cases a; rfl

theorem setChild_setChild (a c d : Frame) : (a.setChild c).setChild d = a.setChild d := by cases a; rfl

theorem play_deeper (a ch : Frame) (cs : List (Nat × Call)) :
    play (a.setChild ch) (deeper cs) = (play ch cs).map fun p => (a.setChild p.1, deeper p.2) := by
  induction cs generalizing ch with
  | nil => rfl
  | cons x r ih =>
    obtain ⟨d, c⟩ := x
    simp only [deeper, List.map_cons, play, Frame.callAt, setChild_child]
    cases ch.callAt d c with
    | ok ch' =>
      simp only [setChild_setChild]
      have := ih ch'
      unfold deeper at this
      rw [this]
      cases play ch' r <;> rfl
    | err e ch' =>
      simp only [setChild_setChild]
      exact ih ch'
    | panic => rfl
    | noHandle => rfl

theorem play_one {a b : Frame} {c : Call} (h : a.call c = .ok b) : play a [(0, c)] = some (b, [(0, c)]) := by
  simp only [play, Frame.callAt, h]; rfl

theorem find_nodup {fs : List FieldT} (hn : (fs.map FieldT.name).Nodup) {i : Nat} {fd : FieldT}
    (h : FieldAt fs i fd) : Calls.find fs fd.name = some i := by
  have h' : fs[i]? = some fd := h
  have hlt : i < fs.length := by
    rcases Nat.lt_or_ge i fs.length with hl | hl
    · exact hl
    · rw [List.getElem?_eq_none hl] at h'; cases h'
  rw [List.getElem?_eq_getElem hlt] at h'
  cases h'
  refine List.findIdx?_eq_some_iff_getElem.2 ⟨hlt, by simp, fun j hj => ?_⟩
  simp only [decide_eq_true_eq]
  intro he
  have := (List.pairwise_iff_getElem.1 hn) j i (by simpa using Nat.lt_trans hj hlt) (by simpa using hlt) hj
  simp only [List.getElem_map] at this
  exact this he

theorem shape_nodup {t : T} {fs : List FieldT} (h : t.shape = .struct fs) : (fs.map FieldT.name).Nodup := by
  cases t <;> cases h <;> decide +kernel

theorem takeKey_free {fs : List FieldT} {l : List (Option Val)} {s i : Nat} {fd : FieldT}
    (hn : (fs.map FieldT.name).Nodup) (hb : Bits s l) (hf : FieldAt fs i fd) (hl : l[i]? = some none) :
    takeKey fs fd.name s = .ok (i, fd) := by
  unfold takeKey
  rw [find_nodup hn hf]
  have hbit : ¬ (s &&& (1 <<< i) ≠ 0) := by
    rw [and_bit_ne_zero, hb i]
    rintro ⟨v, hv⟩
    rw [hl] at hv; cases hv
  simp only [if_neg hbit]
  rw [show fs[i]? = some fd from hf]

/-- A finished assembler holding `v`. -/
def DoneWith (v : Val) (a : Frame) : Prop := a.m = .value ∧ a.w = v

theorem makes_play {t : T} {v : Val} {cs : List (Nat × Call)} (h : Makes t v cs) :
    ∃ a, play (fresh t) cs = some (a, cs) ∧ DoneWith v a :=
  Makes.rec
    (motive_1 := fun t v cs _ => ∃ a, play (fresh t) cs = some (a, cs) ∧ DoneWith v a)
    (motive_2 := fun e vs cs _ => ∀ t : T, t.shape = .list e → ∃ a s f,
      play (.mk t (.list []) .midvalue true .initial 0 0 none) cs = some (a, cs) ∧ a.ty = t ∧
      a.begun = true ∧ ready a = some (.mk t (.list vs) .midvalue true .initial s f none))
    (motive_3 := fun fs l cs _ => ∀ t : T, t.shape = .struct fs → ∃ a s f,
      play (.mk t (.struct (fs.map fun _ => none)) .midvalue true .initial 0 0 none) cs = some (a, cs) ∧
      a.ty = t ∧ a.begun = true ∧
      ready a = some (.mk t (.struct l) .midvalue true .initial s f none) ∧ Bits s l)
    (by
      intro t h b
      refine ⟨.mk t (.text b) .value false .initial 0 0 none, play_one ?_, rfl, rfl⟩
      simp only [Frame.call, fresh, Calls.assignString, h]
      rfl)
    (by
      intro t h l
      refine ⟨.mk t (.link l) .value false .initial 0 0 none, play_one ?_, rfl, rfl⟩
      simp only [Frame.call, fresh, Calls.assignLink, h]
      rfl)
    (by
      intro t v
      refine ⟨.mk t v .value false .initial 0 0 none, play_one ?_, rfl, rfl⟩
      simp only [Frame.call, fresh, Calls.assignSelf]
      rw [if_neg (by simp)]
      rfl)
    (by
      intro t e h n vs cs _ ih
      obtain ⟨a, s, f, hp, hty, hb, hr⟩ := ih t h
      refine ⟨.mk t (.list vs) .value true .finished s f none, ?_, rfl, rfl⟩
      refine play_append_ok (xs := (0, .beginList n) :: cs)
        (play_append_ok (xs := [(0, .beginList n)]) (play_one ?_) hp) (play_one ?_)
      · simp only [Frame.call, fresh, Calls.beginList, h, zero_list h, ite_self]
        rfl
      · simp only [Frame.call, hb, Calls.finish, hty, h, hr, if_true])
    (by
      intro t fs h l cs _ hg ih
      obtain ⟨a, s, f, hp, hty, hb, hr, hbits⟩ := ih t h
      refine ⟨.mk t (.struct l) .value true .finished s f none, ?_, rfl, rfl⟩
      refine play_append_ok (xs := (0, .beginMap) :: cs)
        (play_append_ok (xs := [(0, .beginMap)]) (play_one ?_) hp) (play_one ?_)
      · simp only [Frame.call, fresh, Calls.beginMap, h, zero_struct h]
        rfl
      · simp only [Frame.call, hb, Calls.finish, hty, h, hr, if_true]
        rw [if_neg (Decidable.not_not.2 ((sufficient_iff hbits).2 hg))])
    (by
      intro e t h
      exact ⟨_, 0, 0, rfl, rfl, rfl, rfl⟩)
    (by
      intro e vs cs v c _ _ ih1 ih2 t h
      obtain ⟨a, s, f, hp, hty, hb, hr⟩ := ih1 t h
      obtain ⟨ch, hch, hd⟩ := ih2
      refine ⟨.mk t (.list vs) .midvalue true .midValue s f (some ch), s, f, ?_, rfl, rfl, ?_⟩
      · refine play_append_ok hp (play_append_ok (xs := [(0, .assembleValue)])
          (b := (Frame.mk t (.list vs) .midvalue true .midValue s f none).setChild (fresh e)) (play_one ?_) ?_)
        · simp only [Frame.call, hb, Calls.assembleValue, hty, h, hr, if_true]
          rfl
        · exact (play_deeper _ _ _).trans (by rw [hch]; rfl)
      · simp only [ready, hd.1, if_true, put, hd.2])
    (by
      intro fs t h
      exact ⟨_, 0, 0, rfl, rfl, rfl, rfl, bits_zero fs⟩)
    (by
      intro fs l cs i fd nm v c _ hf hl hn _ ih1 ih2 t h
      obtain ⟨a, s, f, hp, hty, hb, hr, hbits⟩ := ih1 t h
      obtain ⟨ch, hch, hd⟩ := ih2
      have hk := takeKey_free (shape_nodup h) hbits hf hl
      refine ⟨.mk t (.struct l) .midvalue true .midValue (s + 1 <<< i) i (some ch), s + 1 <<< i, i,
        ?_, rfl, rfl, ?_, bits_add hbits hl v⟩
      · refine play_append_ok (play_append_ok hp
          (b := a) (c := (Frame.mk t (.struct l) .midvalue true .midValue (s + 1 <<< i) i none).setChild (fresh fd.ty)) ?_) ?_
        · cases hn with
          | entry =>
            refine play_one ?_
            simp only [Frame.call, hb, Calls.assembleEntry, hty, h, hr, if_true, hk]
            rfl
          | keyValue =>
            refine play_append_ok (xs := [(0, .assembleKey)])
              (b := .mk t (.struct l) .midvalue true .midKey s f none) (play_one ?_)
              (play_append_ok (xs := [(0, .keyAssign fd.name)])
                (b := .mk t (.struct l) .midvalue true .expectValue (s + 1 <<< i) i none) (play_one ?_) (play_one ?_))
            · simp only [Frame.call, hb, Calls.assembleKey, hty, h, hr, if_true]
            · simp only [Frame.call, Frame.begun, Calls.keyAssign, h, if_true, hk, ne_eq, not_true_eq_false, if_false]
            · simp only [Frame.call, Frame.begun, Calls.assembleValue, Frame.ty, h, if_true]
              rw [show fs[i]? = some fd from hf]
              rfl
        · exact (play_deeper _ _ _).trans (by rw [hch]; rfl)
      · simp only [ready, hd.1, if_true, put, hd.2])
    h

end Verif
