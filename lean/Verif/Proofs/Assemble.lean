import Verif.Model.Assemble
import Verif.Spec.Build

/-!
# Lemmas about the assemblers
-/

namespace Verif

open Spec

/-! ## Bits -/

theorem testBit_add_two_pow (s i j : Nat) (h : s.testBit i = false) :
    (s + 2 ^ i).testBit j = (decide (i = j) || s.testBit j) := by
  induction i generalizing s j with
  | zero =>
    rw [Nat.testBit_zero] at h
    have h0 : s % 2 = 0 := by have := of_decide_eq_false h; omega
    cases j with
    | zero =>
      rw [Nat.testBit_zero]
      simp only [Nat.pow_zero, decide_true, Bool.true_or, decide_eq_true_eq]
      omega
    | succ j =>
      rw [Nat.testBit_add_one, Nat.testBit_add_one]
      have : (s + 2 ^ 0) / 2 = s / 2 := by rw [Nat.pow_zero]; omega
      rw [this]
      simp
  | succ i ih =>
    rw [Nat.testBit_add_one] at h
    have hp : 2 ^ (i + 1) = 2 * 2 ^ i := by rw [Nat.pow_succ, Nat.mul_comm]
    cases j with
    | zero =>
      rw [Nat.testBit_zero, Nat.testBit_zero]
      have : (s + 2 ^ (i + 1)) % 2 = s % 2 := by rw [hp]; omega
      rw [this]
      simp
    | succ j =>
      rw [Nat.testBit_add_one, Nat.testBit_add_one]
      have : (s + 2 ^ (i + 1)) / 2 = s / 2 + 2 ^ i := by rw [hp]; omega
      rw [this, ih _ _ h]
      congr 1
      simp

theorem and_bit_ne_zero (s i : Nat) : (s &&& (1 <<< i) ≠ 0) ↔ s.testBit i = true := by
  rw [Nat.one_shiftLeft]
  constructor
  · intro h
    cases hb : s.testBit i with
    | true => rfl
    | false =>
      refine absurd (Nat.eq_of_testBit_eq fun j => ?_) h
      rw [Nat.testBit_and, Nat.testBit_two_pow, Nat.zero_testBit]
      by_cases hij : i = j
      · subst hij; rw [hb]; rfl
      · simp [hij]
  · intro h h0
    have := congrArg (fun x => Nat.testBit x i) h0
    simp only [Nat.testBit_and, Nat.testBit_two_pow, h, Nat.zero_testBit] at this
    simp at this

variable {W : Type}

theorem sufficientFrom_testBit (l : List (Field W)) (i j : Nat) :
    (sufficientFrom i l).testBit j = (decide (i ≤ j) && ((l[j - i]?).map Field.required).getD false) := by
  induction l generalizing i j with
  | nil => simp [sufficientFrom]
  | cons f r ih =>
    unfold sufficientFrom
    have hi : (sufficientFrom (i + 1) r).testBit i = false := by
      have h3 : ¬ i + 1 ≤ i := by omega
      rw [ih]; simp [h3]
    have key : ((if f.required then 1 <<< i else 0) + sufficientFrom (i + 1) r).testBit j
        = ((f.required && decide (i = j)) || (sufficientFrom (i + 1) r).testBit j) := by
      cases f.required with
      | false => simp
      | true =>
        rw [if_pos rfl, Nat.one_shiftLeft, Nat.add_comm, testBit_add_two_pow _ _ _ hi, Bool.true_and]
    rw [key, ih]
    by_cases h1 : i = j
    · subst h1
      have h3 : ¬ i + 1 ≤ i := by omega
      simp [h3]
    · by_cases h2 : i ≤ j
      · have h3 : i + 1 ≤ j := by omega
        obtain ⟨d, hd⟩ : ∃ d, j = i + 1 + d := ⟨j - (i + 1), by omega⟩
        subst hd
        have e1 : i + 1 + d - (i + 1) = d := by omega
        have e2 : i + 1 + d - i = d + 1 := by omega
        simp [e1, e2, h1, h2, h3]
      · have h3 : ¬ i + 1 ≤ j := by omega
        simp [h1, h2, h3]

theorem and_sufficient (S : Struct W) (s : Nat) :
    (s &&& S.sufficient = S.sufficient) ↔
      ∀ i f, S.fields[i]? = some f → f.required = true → s.testBit i = true := by
  have hb : ∀ j, S.sufficient.testBit j = ((S.fields[j]?).map Field.required).getD false := by
    intro j
    unfold Struct.sufficient
    rw [sufficientFrom_testBit]
    simp
  constructor
  · intro h i f hf hr
    have := congrArg (fun x => Nat.testBit x i) h
    simp only [Nat.testBit_and, hb, hf, Option.map_some, Option.getD_some, hr, Bool.and_true] at this
    exact this
  · intro h
    refine Nat.eq_of_testBit_eq fun j => ?_
    rw [Nat.testBit_and, hb]
    cases hf : S.fields[j]? with
    | none => simp
    | some f =>
      simp only [Option.map_some, Option.getD_some]
      cases hr : f.required with
      | false => simp
      | true => rw [h j f hf hr]; rfl

/-! ## The loop without its state -/

/-- The loop of `AssignNode` on the value and the field bits alone. -/
def Struct.run (S : Struct W) : List (Bytes × Node) → W → Nat → Res W
  | [], w, s => if s &&& S.sufficient ≠ S.sufficient then .err .missingField else .ok w
  | (k, v) :: r, w, s =>
    match S.find k with
    | none => .err .invalidKey
    | some i =>
      if s &&& (1 <<< i) ≠ 0 then .err .repeatedKey
      else match S.fields[i]? with
        | none => .panic
        | some f => do
          let w ← f.assign w v
          S.run r w (s + (1 <<< i))

theorem Struct.find_lt (S : Struct W) {k : Bytes} {i : Nat} (h : S.find k = some i) :
    ∃ f, S.fields[i]? = some f ∧ f.name = k := by
  unfold Struct.find at h
  rw [List.findIdx?_eq_some_iff_getElem] at h
  obtain ⟨hi, h1, -⟩ := h
  exact ⟨S.fields[i], List.getElem?_eq_getElem hi, of_decide_eq_true h1⟩

/-- Assembler states between entries: nothing assigned yet, or the last child
finished. -/
def Struct.Between (S : Struct W) (a : Asm W) : Prop :=
  (a.state = .initial ∧ a.cm = .absent) ∨
  (a.state = .midValue ∧ a.cm = .value ∧ a.f < S.fields.length)

theorem Struct.ready_between (S : Struct W) (a : Asm W) (h : S.Between a) :
    S.ready a = .ok { a with state := .initial, cm := .absent } := by
  unfold Struct.ready
  rcases h with ⟨h1, h2⟩ | ⟨h1, h2, h3⟩
  · rw [h1]
    dsimp only
    cases a
    simp_all
  · rw [h1]
    dsimp only
    unfold Struct.tidy
    rw [if_pos h3, if_pos h2]
    rfl

/-- On an assembler with a value to fill, the loop and `Build` amount to `run`. -/
theorem Struct.assignEntries_run (S : Struct W) (es : List (Bytes × Node)) (a : Asm W) (w : W)
    (hw : a.w = some w) (h : S.Between a) :
    (S.assignEntries es a >>= Asm.build) = S.run es w a.s := by
  induction es generalizing a w with
  | nil =>
    unfold Struct.assignEntries Struct.finish Struct.run
    rw [S.ready_between a h]
    simp only [Res.bind_ok]
    split
    · rfl
    · simp only [Res.bind_ok, Asm.build, hw]
  | cons e r ih =>
    obtain ⟨k, v⟩ := e
    unfold Struct.assignEntries Struct.run Struct.assembleKey Struct.keyAssignNode
    rw [S.ready_between a h]
    simp only [Res.bind_ok, Node.asString, Struct.keyAssignString, ne_eq, not_true_eq_false,
      if_false]
    cases hf : S.find k with
    | none => rfl
    | some i =>
      obtain ⟨f, hi, -⟩ := S.find_lt hf
      have hlt : i < S.fields.length := by
        rcases Nat.lt_or_ge i S.fields.length with h | h
        · exact h
        · rw [List.getElem?_eq_none h] at hi; cases hi
      dsimp only
      split
      · rfl
      · simp only [Res.bind_ok, Struct.assembleValue, ne_eq, not_true_eq_false, if_false, hw,
          if_pos hlt, Struct.childAssign, hi]
        cases hv : f.assign w v with
        | err e => rfl
        | panic => rfl
        | ok w' =>
          simp only [Res.bind_ok]
          exact ih _ w' rfl (Or.inr ⟨rfl, rfl, hlt⟩)

/-- `AssignNode` and `Build` on a child assembler whose pointer is not nil. -/
theorem Struct.child_some (S : Struct W) (w : W) (n : Node) :
    S.child (some w) n =
      if n.isNull then .err .wrongKind
      else match S.self n with
        | some v => .ok v
        | none =>
          if n.kind ≠ .map then .err .wrongKind
          else match n.mapIterator with
            | none => .panic
            | some es => S.run es w 0 := by
  unfold Struct.child Struct.assignNode
  by_cases hn : n.isNull
  · rw [if_pos hn, if_pos hn]; rfl
  · rw [if_neg hn, if_neg hn]
    cases hs : S.self n with
    | some v => rfl
    | none =>
      dsimp only
      by_cases hk : n.kind ≠ .map
      · rw [if_pos hk, if_pos hk]; rfl
      · rw [if_neg hk, if_neg hk]
        cases hm : n.mapIterator with
        | none => rfl
        | some es => exact S.assignEntries_run _ _ w rfl (Or.inl ⟨rfl, rfl⟩)

/-- A map node has an iterator. -/
theorem Node.mapIterator_of_kind {n : Node} (h : n.kind = .map) : ∃ es, n.mapIterator = some es := by
  cases n <;> first | (cases h; done) | exact ⟨_, rfl⟩ | skip
  · exact ⟨_, if_pos h⟩
  · exact ⟨_, if_pos h⟩

/-- Only map nodes have an iterator. -/
theorem Node.kind_of_mapIterator {n : Node} {es} (h : n.mapIterator = some es) : n.kind = .map := by
  cases n <;> first | (cases h; done) | rfl | skip
  all_goals
    simp only [Node.mapIterator] at h
    split at h
    · assumption
    · cases h

theorem Node.listIterator_of_kind {n : Node} (h : n.kind = .list) :
    ∃ ns, n.listIterator = some ns := by
  cases n <;> first | (cases h; done) | exact ⟨_, rfl⟩ | skip
  · exact ⟨_, if_pos h⟩
  · exact ⟨_, if_pos h⟩

theorem Node.kind_of_listIterator {n : Node} {ns} (h : n.listIterator = some ns) :
    n.kind = .list := by
  cases n <;> first | (cases h; done) | rfl | skip
  all_goals
    simp only [Node.listIterator] at h
    split at h
    · assumption
    · cases h

/-! ## What a successful run says -/

theorem Struct.find_of_name (S : Struct W) (hn : (S.fields.map Field.name).Nodup) {i : Nat}
    {f : Field W} (hi : S.fields[i]? = some f) : S.find f.name = some i := by
  unfold Struct.find
  rw [List.findIdx?_eq_some_iff_getElem]
  obtain ⟨hlt, he⟩ := List.getElem?_eq_some_iff.1 hi
  refine ⟨hlt, by rw [he]; exact decide_eq_true rfl, ?_⟩
  intro j hj hc
  have hjl : j < S.fields.length := Nat.lt_trans hj hlt
  have h1 : S.fields[j].name = f.name := of_decide_eq_true hc
  rw [← he] at h1
  have h2 := (List.pairwise_iff_getElem.1 hn) j i (by simpa using hjl) (by simpa using hlt) hj
  rw [List.getElem_map, List.getElem_map] at h2
  exact h2 h1

/-- The assignments of a struct type respect `P`: assigning an unset field
(`P name none`) succeeds only with `P name (some value)`, and leaves the other
fields alone. -/
def Struct.Respects (S : Struct W) (P : Bytes → Option Node → W → Prop) : Prop :=
  ∀ f ∈ S.fields, ∀ w n w', P f.name none w → f.assign w n = .ok w' →
    P f.name (some n) w' ∧ ∀ k m, k ≠ f.name → P k m w → P k m w'

theorem Struct.name_inj (S : Struct W) (hn : (S.fields.map Field.name).Nodup) {i j : Nat}
    {f g : Field W} (hi : S.fields[i]? = some f) (hj : S.fields[j]? = some g)
    (h : f.name = g.name) : i = j := by
  have h1 := S.find_of_name hn hi
  have h2 := S.find_of_name hn hj
  rw [h, h2] at h1
  exact (Option.some.inj h1).symm

/-- A successful run: keys do not repeat, are field names not seen before, the
required fields are all there, and `P` holds of every entry. -/
theorem Struct.run_ok (S : Struct W) (hn : (S.fields.map Field.name).Nodup)
    (P : Bytes → Option Node → W → Prop) (hP : S.Respects P)
    {es : List (Bytes × Node)} {w w' : W} {s : Nat}
    (h0 : ∀ i f, S.fields[i]? = some f → s.testBit i = false → P f.name none w)
    (h : S.run es w s = .ok w') :
    (es.map Prod.fst).Nodup ∧
    (∀ k ∈ es.map Prod.fst, k ∈ S.fields.map Field.name ∧
      ∀ i, S.find k = some i → s.testBit i = false) ∧
    (∀ i f, S.fields[i]? = some f → f.required = true →
      s.testBit i = true ∨ f.name ∈ es.map Prod.fst) ∧
    (∀ k v, (k, v) ∈ es → P k (some v) w') ∧
    (∀ k m, k ∉ es.map Prod.fst → P k m w → P k m w') := by
  induction es generalizing w s with
  | nil =>
    unfold Struct.run at h
    split at h
    · cases h
    · rename_i hs
      cases h
      refine ⟨List.nodup_nil, (fun k hk => by cases hk), ?_, (fun k v hk => by cases hk),
        fun k m _ hp => hp⟩
      intro i f hf hr
      exact Or.inl ((and_sufficient S s).1 (Decidable.not_not.1 hs) i f hf hr)
  | cons e r ih =>
    obtain ⟨k, v⟩ := e
    unfold Struct.run at h
    cases hf : S.find k with
    | none => rw [hf] at h; cases h
    | some i =>
      rw [hf] at h
      dsimp only at h
      split at h
      · cases h
      · rename_i hb
        have hb' : s.testBit i = false := by
          cases hbi : s.testBit i with
          | false => rfl
          | true => exact absurd ((and_bit_ne_zero s i).2 hbi) hb
        obtain ⟨f, hi, hname⟩ := S.find_lt hf
        rw [hi] at h
        dsimp only at h
        obtain ⟨w1, ha, h⟩ := Res.bind_eq_ok.1 h
        obtain ⟨p1, p2⟩ := hP f (List.mem_of_getElem? hi) w v w1 (h0 i f hi hb') ha
        have hbits : ∀ j, (s + 1 <<< i).testBit j = (decide (i = j) || s.testBit j) := by
          intro j
          rw [Nat.one_shiftLeft, testBit_add_two_pow _ _ _ hb']
        have h0' : ∀ j g, S.fields[j]? = some g → (s + 1 <<< i).testBit j = false →
            P g.name none w1 := by
          intro j g hg hjb
          rw [hbits, Bool.or_eq_false_iff] at hjb
          refine p2 _ _ (fun hne => ?_) (h0 j g hg hjb.2)
          exact of_decide_eq_false hjb.1 (S.name_inj hn hg hi hne).symm
        rw [hname] at p1 p2
        obtain ⟨i1, i2, i3, i4, i5⟩ := ih h0' h
        have hk : k ∉ r.map Prod.fst := by
          intro hk
          have := (i2 k hk).2 i hf
          rw [hbits] at this
          simp at this
        refine ⟨?_, ?_, ?_, ?_, ?_⟩
        · rw [List.map_cons, List.nodup_cons]
          exact ⟨hk, i1⟩
        · intro k' hk'
          rw [List.map_cons, List.mem_cons] at hk'
          rcases hk' with rfl | hk'
          · refine ⟨List.mem_map.2 ⟨f, List.mem_of_getElem? hi, hname⟩, ?_⟩
            intro j hj
            rw [hf] at hj
            cases hj
            exact hb'
          · refine ⟨(i2 k' hk').1, ?_⟩
            intro j hj
            have := (i2 k' hk').2 j hj
            rw [hbits, Bool.or_eq_false_iff] at this
            exact this.2
        · intro j g hg hr
          rcases i3 j g hg hr with h1 | h1
          · rw [hbits, Bool.or_eq_true] at h1
            rcases h1 with h1 | h1
            · have := of_decide_eq_true h1
              subst this
              rw [hi] at hg
              cases hg
              exact Or.inr (by rw [List.map_cons, hname]; exact List.mem_cons_self)
            · exact Or.inl h1
          · exact Or.inr (List.mem_cons_of_mem _ h1)
        · intro k' v' hm
          rcases List.mem_cons.1 hm with hm | hm
          · cases hm
            exact i5 _ _ hk p1
          · exact i4 k' v' hm
        · intro k' m hk' hp
          rw [List.map_cons, List.mem_cons, not_or] at hk'
          exact i5 k' m hk'.2 (p2 k' m hk'.1 hp)

/-- Converse: entries with good keys whose values can all be assigned make a
successful run. -/
theorem Struct.run_total (S : Struct W) (hn : (S.fields.map Field.name).Nodup)
    (P : Bytes → Option Node → W → Prop) (hP : S.Respects P)
    {es : List (Bytes × Node)} {w : W} {s : Nat}
    (h0 : ∀ i f, S.fields[i]? = some f → s.testBit i = false → P f.name none w)
    (h1 : (es.map Prod.fst).Nodup)
    (h2 : ∀ k ∈ es.map Prod.fst, k ∈ S.fields.map Field.name)
    (h3 : ∀ k ∈ es.map Prod.fst, ∀ i, S.find k = some i → s.testBit i = false)
    (h4 : ∀ i f, S.fields[i]? = some f → f.required = true →
      s.testBit i = true ∨ f.name ∈ es.map Prod.fst)
    (h5 : ∀ f ∈ S.fields, ∀ v, (f.name, v) ∈ es → ∀ w, P f.name none w →
      ∃ w', f.assign w v = .ok w') :
    ∃ w', S.run es w s = .ok w' := by
  induction es generalizing w s with
  | nil =>
    unfold Struct.run
    have hs : s &&& S.sufficient = S.sufficient := by
      refine (and_sufficient S s).2 fun i f hf hr => ?_
      rcases h4 i f hf hr with h | h
      · exact h
      · cases h
    rw [if_neg (not_not_intro hs)]
    exact ⟨w, rfl⟩
  | cons e r ih =>
    obtain ⟨k, v⟩ := e
    unfold Struct.run
    obtain ⟨f, hf, hname⟩ := List.mem_map.1 (h2 k List.mem_cons_self)
    obtain ⟨i, hi⟩ := List.mem_iff_getElem?.1 hf
    have hfind : S.find k = some i := by rw [← hname]; exact S.find_of_name hn hi
    have hb := h3 k List.mem_cons_self i hfind
    have hb' : ¬ (s &&& 1 <<< i ≠ 0) := fun hb' => by
      rw [(and_bit_ne_zero s i).1 hb'] at hb; cases hb
    rw [hfind]
    dsimp only
    rw [if_neg hb', hi]
    dsimp only
    obtain ⟨w1, hw1⟩ := h5 f hf v (by rw [hname]; exact List.mem_cons_self) w (h0 i f hi hb)
    obtain ⟨p1, p2⟩ := hP f hf w v w1 (h0 i f hi hb) hw1
    rw [hw1, Res.bind_ok]
    rw [List.map_cons, List.nodup_cons] at h1
    have hbits : ∀ j, (s + 1 <<< i).testBit j = (decide (i = j) || s.testBit j) := by
      intro j
      rw [Nat.one_shiftLeft, testBit_add_two_pow _ _ _ hb]
    have h0' : ∀ j g, S.fields[j]? = some g → (s + 1 <<< i).testBit j = false →
        P g.name none w1 := by
      intro j g hg hjb
      rw [hbits, Bool.or_eq_false_iff] at hjb
      refine p2 _ _ (fun hne => ?_) (h0 j g hg hjb.2)
      exact of_decide_eq_false hjb.1 (S.name_inj hn hg hi hne).symm
    refine ih h0' h1.2 (fun k hk => h2 k (List.mem_cons_of_mem _ hk)) ?_ ?_
      (fun f hf v hv w hw => h5 f hf v (List.mem_cons_of_mem _ hv) w hw)
    · intro k' hk' j hj
      rw [hbits, h3 k' (List.mem_cons_of_mem _ hk') j hj, Bool.or_false]
      refine decide_eq_false fun hij => ?_
      subst hij
      obtain ⟨g, hg, hgn⟩ := S.find_lt hj
      rw [hi] at hg
      cases hg
      rw [hname] at hgn
      subst hgn
      exact h1.1 hk'
    · intro j g hg hr
      rcases h4 j g hg hr with h | h
      · exact Or.inl (by rw [hbits, h, Bool.or_true])
      · rw [List.map_cons, List.mem_cons] at h
        rcases h with h | h
        · left
          have : j = i := by
            have := S.find_of_name hn hg
            rw [h, hfind] at this
            exact (Option.some.inj this).symm
          rw [hbits, this]
          simp
        · exact Or.inr h

/-! ## Scalars and lists -/

theorem assignString_ok {n : Node} {b : Bytes} : assignString n = .ok b ↔ StrNode n b := by
  unfold assignString StrNode
  cases n <;> try (simp [Node.isNull, Node.asString, Node.kind]; done)
  all_goals rename_i v; cases v <;> simp [Node.isNull, Node.asString, Node.kind, Own.kind]

theorem assignGpgSig_ok {n : Node} {b : Bytes} : assignGpgSig n = .ok b ↔ StrNode n b := by
  unfold assignGpgSig StrNode
  cases n <;> try (simp [Node.isNull, Node.asString, Node.kind]; done)
  all_goals rename_i v; cases v <;> simp [Node.isNull, Node.asString, Node.kind, Own.kind]

theorem assignLink_ok {n : Node} {l : Link} : assignLink n = .ok l ↔ LinkNode n l := by
  unfold assignLink LinkNode
  cases n <;> try (simp [Node.isNull, Node.asLink, Node.kind]; done)
  all_goals rename_i v; cases v <;> simp [Node.isNull, Node.asLink, Node.kind, Own.kind]

theorem assignTreeLink_ok {n : Node} {l : Link} : assignTreeLink n = .ok l ↔ LinkNode n l := by
  unfold assignTreeLink LinkNode
  cases n <;> try (simp [Node.isNull, Node.asLink, Node.kind]; done)
  all_goals rename_i v; cases v <;> simp [Node.isNull, Node.asLink, Node.kind, Own.kind]

theorem assignCommitLink_ok {n : Node} {l : Link} : assignCommitLink n = .ok l ↔ LinkNode n l := by
  unfold assignCommitLink LinkNode
  cases n <;> try (simp [Node.isNull, Node.asLink, Node.kind]; done)
  all_goals rename_i v; cases v <;> simp [Node.isNull, Node.asLink, Node.kind, Own.kind]

theorem Each.length {α : Type} {R : Node → α → Prop} {ns : List Node} {as : List α}
    (h : Each R ns as) : ns.length = as.length := by
  induction ns generalizing as with
  | nil => cases as with
    | nil => rfl
    | cons a as => cases h
  | cons n ns ih => cases as with
    | nil => cases h
    | cons a as => simp only [List.length_cons, ih h.2]

theorem assignElems_ok {α : Type} (f : Node → Res α) (R : Node → α → Prop)
    (hR : ∀ n a, f n = .ok a ↔ R n a) (ns : List Node) (acc as : List α) :
    assignElems f ns acc = .ok as ↔ ∃ bs, as = acc ++ bs ∧ Each R ns bs := by
  induction ns generalizing acc with
  | nil =>
    simp only [assignElems]
    constructor
    · intro h; cases h; exact ⟨[], by simp, trivial⟩
    · rintro ⟨bs, rfl, h⟩
      cases bs with
      | nil => simp
      | cons b bs => cases h
  | cons n ns ih =>
    simp only [assignElems]
    constructor
    · intro h
      obtain ⟨a, h1, h2⟩ := Res.bind_eq_ok.1 h
      obtain ⟨bs, rfl, h3⟩ := (ih _).1 h2
      exact ⟨a :: bs, by simp, (hR n a).1 h1, h3⟩
    · rintro ⟨bs, rfl, h⟩
      cases bs with
      | nil => cases h
      | cons b bs =>
        rw [(hR n b).2 h.1, Res.bind_ok]
        exact (ih _).2 ⟨bs, by simp, h.2⟩

/-- Each element of a list of the package denotes itself. -/
theorem Each.map {α : Type} {R : Node → α → Prop} (g : α → Node) (hg : ∀ a, R (g a) a)
    (as : List α) : Each R (as.map g) as := by
  induction as with
  | nil => trivial
  | cons a as ih => exact ⟨hg a, ih⟩

/-- Equal denotations when the relation is functional. -/
theorem Each.unique {α : Type} {R : Node → α → Prop} (hR : ∀ n a b, R n a → R n b → a = b)
    {ns : List Node} {as bs : List α} (h1 : Each R ns as) (h2 : Each R ns bs) : as = bs := by
  induction ns generalizing as bs with
  | nil =>
    cases as with
    | cons a as => cases h1
    | nil => cases bs with
      | nil => rfl
      | cons b bs => cases h2
  | cons n ns ih =>
    cases as with
    | nil => cases h1
    | cons a as => cases bs with
      | nil => cases h2
      | cons b bs => rw [hR n a b h1.1 h2.1, ih h1.2 h2.2]

theorem assignList_ok {α : Type} (self : Node → Option (List α)) (f : Node → Res α)
    (R : Node → α → Prop) (hR : ∀ n a, f n = .ok a ↔ R n a)
    (hself : ∀ n l, self n = some l → n.isNull = false ∧ ListNode R n l) (n : Node) (as : List α) :
    assignList self f [] n = .ok as ↔ ListNode R n as := by
  have hu : ∀ n a b, R n a → R n b → a = b := by
    intro n a b h1 h2
    rw [← hR] at h1 h2
    rw [h1] at h2
    exact Res.ok.inj h2
  unfold assignList
  by_cases hn : n.isNull
  · rw [if_pos hn]
    constructor
    · intro h; cases h
    · rintro ⟨ns, h, -⟩
      cases n <;> simp [Node.isNull] at hn
      cases h
  · rw [if_neg hn]
    cases hs : self n with
    | some l =>
      obtain ⟨-, ns, h1, h2⟩ := hself n l hs
      dsimp only
      constructor
      · intro h; cases h; exact ⟨ns, h1, h2⟩
      · rintro ⟨ns', h3, h4⟩
        rw [h1] at h3
        cases h3
        rw [Each.unique hu h2 h4]
    | none =>
      dsimp only
      by_cases hk : n.kind ≠ .list
      · rw [if_pos hk]
        constructor
        · intro h; cases h
        · rintro ⟨ns, h, -⟩
          exact absurd (Node.kind_of_listIterator h) hk
      · rw [if_neg hk]
        obtain ⟨ns, hns⟩ := Node.listIterator_of_kind (Decidable.not_not.1 hk)
        rw [hns]
        dsimp only
        rw [assignElems_ok f R hR]
        constructor
        · rintro ⟨bs, rfl, h⟩
          exact ⟨ns, hns, h⟩
        · rintro ⟨ns', h1, h2⟩
          rw [hns] at h1
          cases h1
          exact ⟨as, rfl, h2⟩

end Verif
