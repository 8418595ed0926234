import Verif.Model.Transform
import Verif.Spec.Transform
import Verif.Props.Build

/-!
# `FocusedTransform` and edited data
-/

namespace Verif

open Spec

variable {W : Type}

/-- What `editEntries` and `Build` compute on an assembler with a value to fill. -/
def Struct.runEdit (S : Struct W) (enter : Nat → W → Option Node → Res W) (key : Bytes) :
    List (Bytes × Node) → Bool → W → Nat → Res W
  | [], true, w, s => if s &&& S.sufficient ≠ S.sufficient then .err .missingField else .ok w
  | [], false, w, s =>
    match S.find key with
    | none => .err .invalidKey
    | some i =>
      if s &&& (1 <<< i) ≠ 0 then .err .repeatedKey
      else do
        let w ← enter i w none
        if (s + (1 <<< i)) &&& S.sufficient ≠ S.sufficient then .err .missingField else .ok w
  | (k, v) :: r, b, w, s =>
    match S.find k with
    | none => .err .invalidKey
    | some i =>
      if s &&& (1 <<< i) ≠ 0 then .err .repeatedKey
      else if k = key then do
        let w ← enter i w (some v)
        S.runEdit enter key r true w (s + (1 <<< i))
      else match S.fields[i]? with
        | none => .panic
        | some f => do
          let w ← f.assign w v
          S.runEdit enter key r b w (s + (1 <<< i))

theorem Struct.finish_build (S : Struct W) (a : Asm W) (w : W) (hw : a.w = some w)
    (h : S.Between a) :
    (S.finish a >>= Asm.build) =
      if a.s &&& S.sufficient ≠ S.sufficient then .err .missingField else .ok w := by
  unfold Struct.finish
  rw [S.ready_between a h]
  simp only [Res.bind_ok]
  split
  · rfl
  · simp only [Res.bind_ok, Asm.build, hw]

theorem Struct.editEntries_run (S : Struct W) (enter : Nat → W → Option Node → Res W)
    (key : Bytes) (es : List (Bytes × Node)) (b : Bool) (a : Asm W) (w : W)
    (hw : a.w = some w) (h : S.Between a) :
    (S.editEntries enter key es b a >>= Asm.build) = S.runEdit enter key es b w a.s := by
  induction es generalizing a w b with
  | nil =>
    cases b with
    | true => exact S.finish_build a w hw h
    | false =>
      unfold Struct.editEntries Struct.runEdit Struct.assembleKey
      rw [S.ready_between a h]
      simp only [Res.bind_ok, Struct.keyAssignString, ne_eq, not_true_eq_false, if_false]
      cases hf : S.find key with
      | none => rfl
      | some i =>
        obtain ⟨f, hi, -⟩ := S.find_lt hf
        have hlt : i < S.fields.length := by
          rcases Nat.lt_or_ge i S.fields.length with h | h
          · exact h
          · rw [List.getElem?_eq_none h] at hi; cases hi
        dsimp only
        split
        · rfl
        · simp only [Res.bind_ok, Struct.assembleValue, ne_eq, not_true_eq_false, if_false, hw,
            if_pos hlt, Struct.childEnter]
          cases hv : enter i w none with
          | err e => rfl
          | panic => rfl
          | ok w' =>
            simp only [Res.bind_ok]
            exact S.finish_build _ w' rfl (Or.inr ⟨rfl, rfl, hlt⟩)
  | cons e r ih =>
    obtain ⟨k, v⟩ := e
    unfold Struct.editEntries Struct.runEdit Struct.assembleKey Struct.keyAssignNode
    rw [S.ready_between a h]
    simp only [Res.bind_ok, Node.asString, Struct.keyAssignString, ne_eq, not_true_eq_false,
      if_false]
    cases hf : S.find k with
    | none => rfl
    | some i =>
      obtain ⟨f, hi, -⟩ := S.find_lt hf
      have hlt : i < S.fields.length := by
        rcases Nat.lt_or_ge i S.fields.length with h | h
        · exact h
        · rw [List.getElem?_eq_none h] at hi; cases hi
      dsimp only
      split
      · rfl
      · simp only [Res.bind_ok, Struct.assembleValue, ne_eq, not_true_eq_false, if_false, hw,
          if_pos hlt]
        by_cases hk : k = key
        · simp only [if_pos hk, Struct.childEnter, ne_eq, not_true_eq_false, if_false]
          cases hv : enter i w (some v) with
          | err e => rfl
          | panic => rfl
          | ok w' =>
            simp only [Res.bind_ok]
            exact ih _ _ w' rfl (Or.inr ⟨rfl, rfl, hlt⟩)
        · simp only [if_neg hk, Struct.childAssign, ne_eq, not_true_eq_false, if_false, hi]
          cases hv : f.assign w v with
          | err e => rfl
          | panic => rfl
          | ok w' =>
            simp only [Res.bind_ok]
            exact ih _ _ w' rfl (Or.inr ⟨rfl, rfl, hlt⟩)

/-- The entries with those under `key` changed; `b` if `key` was met before. -/
def EditRest (R : Option Node → Node → Prop) (key : Bytes) (b : Bool)
    (es es' : List (Bytes × Node)) : Prop :=
  if b then Swap R key es es' else EditMap R key es es'

theorem editRest_nil_true {R : Option Node → Node → Prop} {key : Bytes} {es'} :
    EditRest R key true [] es' ↔ es' = [] := by
  unfold EditRest
  cases es' <;> simp [Swap]

theorem editRest_nil_false {R : Option Node → Node → Prop} {key : Bytes} {es'} :
    EditRest R key false [] es' ↔ ∃ v', R none v' ∧ es' = [(key, v')] := by
  simp [EditRest, EditMap]

theorem swap_cons {R : Option Node → Node → Prop} {key k : Bytes} {v : Node} {r es'} :
    Swap R key ((k, v) :: r) es' ↔
      ∃ v' r', es' = (k, v') :: r' ∧ (if k = key then R (some v) v' else v' = v) ∧
        Swap R key r r' := by
  constructor
  · intro h
    match es', h with
    | (k', v') :: r', h =>
      obtain ⟨rfl, h1, h2⟩ := h
      exact ⟨v', r', rfl, h1, h2⟩
  · rintro ⟨v', r', rfl, h1, h2⟩
    exact ⟨rfl, h1, h2⟩

theorem editRest_key {R : Option Node → Node → Prop} {key : Bytes} {b : Bool} {v : Node} {r es'} :
    EditRest R key b ((key, v) :: r) es' ↔
      ∃ v' r', es' = (key, v') :: r' ∧ R (some v) v' ∧ EditRest R key true r r' := by
  have : EditRest R key b ((key, v) :: r) es' ↔ Swap R key ((key, v) :: r) es' := by
    unfold EditRest EditMap
    cases b <;> simp
  rw [this, swap_cons]
  simp [EditRest]

theorem editRest_other {R : Option Node → Node → Prop} {key k : Bytes} {b : Bool} {v : Node}
    {r es'} (hk : k ≠ key) :
    EditRest R key b ((k, v) :: r) es' ↔ ∃ r', es' = (k, v) :: r' ∧ EditRest R key b r r' := by
  cases b with
  | true =>
    unfold EditRest
    simp only [if_true]
    rw [swap_cons]
    simp only [if_neg hk]
    constructor
    · rintro ⟨v', r', h1, rfl, h2⟩
      exact ⟨r', h1, h2⟩
    · rintro ⟨r', h1, h2⟩
      exact ⟨v, r', h1, rfl, h2⟩
  | false =>
    unfold EditRest EditMap
    simp only [Bool.false_eq_true, if_false, List.map_cons, List.mem_cons, Ne.symm hk, false_or]
    split
    · rw [swap_cons]
      simp only [if_neg hk]
      constructor
      · rintro ⟨v', r', h1, rfl, h2⟩
        exact ⟨r', h1, h2⟩
      · rintro ⟨r', h1, h2⟩
        exact ⟨v, r', h1, rfl, h2⟩
    · constructor
      · rintro ⟨v', h1, rfl⟩
        exact ⟨_, rfl, v', h1, rfl⟩
      · rintro ⟨r', rfl, v', h1, rfl⟩
        exact ⟨v', h1, rfl⟩

/-- Entering one field amounts to assigning some node to it, `Q` being true of values
whose field was not assigned yet. -/
structure Struct.Enters (S : Struct W) (enter : Nat → W → Option Node → Res W) (key : Bytes)
    (R : Option Node → Node → Prop) (Q : W → Prop) : Prop where
  here : ∀ i f, S.fields[i]? = some f → f.name = key → ∀ w, Q w → ∀ n w',
    enter i w n = .ok w' ↔ ∃ v', R n v' ∧ f.assign w v' = .ok w'
  keep : ∀ f ∈ S.fields, f.name ≠ key → ∀ w v w', Q w → f.assign w v = .ok w' → Q w'

theorem Struct.runEdit_ok (S : Struct W) (enter : Nat → W → Option Node → Res W) (key : Bytes)
    (R : Option Node → Node → Prop) (Q : W → Prop) (hE : S.Enters enter key R Q)
    (es : List (Bytes × Node)) (b : Bool) (w w' : W) (s : Nat)
    (hb : if b then ∀ i, S.find key = some i → s.testBit i = true else Q w) :
    S.runEdit enter key es b w s = .ok w' ↔
      ∃ es', EditRest R key b es es' ∧ S.run es' w s = .ok w' := by
  induction es generalizing b w s with
  | nil =>
    cases b with
    | true =>
      simp only [editRest_nil_true, exists_eq_left]
      rfl
    | false =>
      simp only [Bool.false_eq_true, if_false] at hb
      simp only [editRest_nil_false]
      unfold Struct.runEdit
      cases hf : S.find key with
      | none =>
        constructor
        · intro h; cases h
        · rintro ⟨es', ⟨v', -, rfl⟩, h⟩
          unfold Struct.run at h
          rw [hf] at h
          cases h
      | some i =>
        obtain ⟨f, hi, hname⟩ := S.find_lt hf
        dsimp only
        split
        · rename_i hbit
          constructor
          · intro h; cases h
          · rintro ⟨es', ⟨v', -, rfl⟩, h⟩
            unfold Struct.run at h
            rw [hf] at h
            dsimp only at h
            rw [if_pos hbit] at h
            cases h
        · rename_i hbit
          constructor
          · intro h
            obtain ⟨w1, h1, h2⟩ := Res.bind_eq_ok.1 h
            obtain ⟨v', hv, ha⟩ := (hE.here i f hi hname w hb none w1).1 h1
            refine ⟨_, ⟨v', hv, rfl⟩, ?_⟩
            unfold Struct.run
            rw [hf]
            dsimp only
            rw [if_neg hbit, hi]
            dsimp only
            rw [ha, Res.bind_ok]
            exact h2
          · rintro ⟨es', ⟨v', hv, rfl⟩, h⟩
            unfold Struct.run at h
            rw [hf] at h
            dsimp only at h
            rw [if_neg hbit, hi] at h
            dsimp only at h
            obtain ⟨w1, h1, h2⟩ := Res.bind_eq_ok.1 h
            rw [(hE.here i f hi hname w hb none w1).2 ⟨v', hv, h1⟩, Res.bind_ok]
            exact h2
  | cons e r ih =>
    obtain ⟨k, v⟩ := e
    have hbits : ∀ i j, (s &&& 1 <<< i) = 0 →
        (s + 1 <<< i).testBit j = (decide (i = j) || s.testBit j) := by
      intro i j h
      rw [Nat.one_shiftLeft, testBit_add_two_pow]
      cases hbi : s.testBit i with
      | false => rfl
      | true => exact absurd h ((and_bit_ne_zero s i).2 hbi)
    by_cases hk : k = key
    · subst hk
      simp only [editRest_key]
      unfold Struct.runEdit
      cases hf : S.find k with
      | none =>
        constructor
        · intro h; cases h
        · rintro ⟨es', ⟨v', r', rfl, -, -⟩, h⟩
          unfold Struct.run at h
          rw [hf] at h
          cases h
      | some i =>
        obtain ⟨f, hi, hname⟩ := S.find_lt hf
        dsimp only
        split
        · rename_i hbit
          constructor
          · intro h; cases h
          · rintro ⟨es', ⟨v', r', rfl, -, -⟩, h⟩
            unfold Struct.run at h
            rw [hf] at h
            dsimp only at h
            rw [if_pos hbit] at h
            cases h
        · rename_i hbit
          have hQ : Q w := by
            cases b with
            | false => simpa using hb
            | true =>
              simp only [if_true] at hb
              exact absurd ((and_bit_ne_zero s i).2 (hb i hf)) hbit
          have hbit0 : s &&& 1 <<< i = 0 := Decidable.not_not.1 hbit
          have hb' : ∀ w1 : W, if true = true then ∀ j, S.find k = some j →
              (s + 1 <<< i).testBit j = true else Q w1 := by
            intro w1
            simp only [if_true]
            intro j hj
            rw [hf] at hj
            cases hj
            rw [hbits i i hbit0]
            simp
          rw [if_pos rfl]
          constructor
          · intro h
            obtain ⟨w1, h1, h2⟩ := Res.bind_eq_ok.1 h
            obtain ⟨v', hv, ha⟩ := (hE.here i f hi hname w hQ (some v) w1).1 h1
            obtain ⟨r', hr, h3⟩ := (ih true w1 _ (hb' w1)).1 h2
            refine ⟨_, ⟨v', r', rfl, hv, hr⟩, ?_⟩
            unfold Struct.run
            rw [hf]
            dsimp only
            rw [if_neg hbit, hi]
            dsimp only
            rw [ha, Res.bind_ok]
            exact h3
          · rintro ⟨es', ⟨v', r', rfl, hv, hr⟩, h⟩
            unfold Struct.run at h
            rw [hf] at h
            dsimp only at h
            rw [if_neg hbit, hi] at h
            dsimp only at h
            obtain ⟨w1, h1, h2⟩ := Res.bind_eq_ok.1 h
            rw [(hE.here i f hi hname w hQ (some v) w1).2 ⟨v', hv, h1⟩, Res.bind_ok]
            exact (ih true w1 _ (hb' w1)).2 ⟨r', hr, h2⟩
    · simp only [editRest_other hk]
      unfold Struct.runEdit
      cases hf : S.find k with
      | none =>
        constructor
        · intro h; cases h
        · rintro ⟨es', ⟨r', rfl, -⟩, h⟩
          unfold Struct.run at h
          rw [hf] at h
          cases h
      | some i =>
        obtain ⟨f, hi, hname⟩ := S.find_lt hf
        dsimp only
        split
        · rename_i hbit
          constructor
          · intro h; cases h
          · rintro ⟨es', ⟨r', rfl, -⟩, h⟩
            unfold Struct.run at h
            rw [hf] at h
            dsimp only at h
            rw [if_pos hbit] at h
            cases h
        · rename_i hbit
          have hbit0 : s &&& 1 <<< i = 0 := Decidable.not_not.1 hbit
          have hb' : ∀ w1 : W, f.assign w v = .ok w1 →
              if b then ∀ j, S.find key = some j → (s + 1 <<< i).testBit j = true else Q w1 := by
            intro w1 hw1
            cases b with
            | true =>
              simp only [if_true] at hb ⊢
              intro j hj
              rw [hbits i j hbit0, hb j hj, Bool.or_true]
            | false =>
              simp only [Bool.false_eq_true, if_false] at hb ⊢
              exact hE.keep f (List.mem_of_getElem? hi) (by rw [hname]; exact hk) w v w1 hb hw1
          rw [hi]
          dsimp only
          constructor
          · intro h
            obtain ⟨w1, h1, h2⟩ := Res.bind_eq_ok.1 h
            obtain ⟨r', hr, h3⟩ := (ih b w1 _ (hb' w1 h1)).1 h2
            refine ⟨_, ⟨r', rfl, hr⟩, ?_⟩
            unfold Struct.run
            rw [hf]
            dsimp only
            rw [if_neg hbit, hi]
            dsimp only
            rw [h1, Res.bind_ok]
            exact h3
          · rintro ⟨es', ⟨r', rfl, hr⟩, h⟩
            unfold Struct.run at h
            rw [hf] at h
            dsimp only at h
            rw [if_neg hbit, hi] at h
            dsimp only at h
            obtain ⟨w1, h1, h2⟩ := Res.bind_eq_ok.1 h
            rw [h1, Res.bind_ok]
            exact (ih b w1 _ (hb' w1 h1)).2 ⟨r', hr, h2⟩

theorem Node.listIterator_none_of_map {n : Node} {es} (h : n.mapIterator = some es) :
    n.listIterator = none := by
  cases n with
  | map => rfl
  | own v => cases v <;> first | rfl | cases h
  | repr v => cases v <;> first | rfl | cases h
  | _ => cases h

/-- `focusedTransform` below the top of a struct. -/
theorem Struct.edit_deep (S : Struct W) (zero : W) (fn : Change)
    (enter : List Seg → Nat → W → Option Node → Res W) (w : Option W) (n : Node) (g : Seg)
    (p : List Seg) (R : Option Node → Node → Prop) (Q : W → Prop)
    (hE : S.Enters (enter p) g.string R Q) (hQ : Q (w.getD zero)) (w' : W) :
    S.edit zero enter w fn (some n) (g :: p) = .ok w' ↔
      ∃ es es', n.mapIterator = some es ∧ EditMap R g.string es es' ∧
        S.run es' (w.getD zero) 0 = .ok w' := by
  have key : ∀ es, n.mapIterator = some es →
      (S.edit zero enter w fn (some n) (g :: p) = .ok w' ↔
        ∃ es', EditMap R g.string es es' ∧ S.run es' (w.getD zero) 0 = .ok w') := by
    intro es hes
    unfold Struct.edit
    dsimp only
    rw [if_pos (Node.kind_of_mapIterator hes), hes]
    show (Res.bind (S.editEntries _ _ _ _ _) _) = _ ↔ _
    have := S.editEntries_run (enter p) g.string es false
      { w := some (w.getD zero), m := .midvalue, state := .initial, s := 0, f := 0, cm := .absent }
      (w.getD zero) rfl (Or.inl ⟨rfl, rfl⟩)
    refine (iff_of_eq (congrArg (· = Res.ok w') this)).trans ?_
    rw [S.runEdit_ok (enter p) g.string R Q hE es false _ _ _ (by simpa using hQ)]
    simp [EditRest]
  by_cases hk : n.kind = .map
  · obtain ⟨es, hes⟩ := Node.mapIterator_of_kind hk
    rw [key es hes]
    constructor
    · rintro ⟨es', h⟩
      exact ⟨es, es', hes, h⟩
    · rintro ⟨es0, es', h0, h⟩
      rw [hes] at h0
      cases h0
      exact ⟨es', h⟩
  · constructor
    · intro h
      unfold Struct.edit at h
      dsimp only at h
      rw [if_neg hk] at h
      cases h
    · rintro ⟨es, -, hes, -⟩
      exact absurd (Node.kind_of_mapIterator hes) hk

/-- `focusedTransform` on an assembler with a value to fill: assigning the edited
node. -/
theorem Struct.edit_ok (S : Struct W) (zero : W) (fn : Change)
    (enter : List Seg → Nat → W → Option Node → Res W) (w : W)
    (hself : ∀ es, S.self (.map es) = none) (hselfl : ∀ ns, S.self (.list ns) = none)
    (Q : Bytes → W → Prop) (hQ : ∀ k, Q k w)
    (hE : ∀ p k, S.Enters (enter p) k (Edited fn p) (Q k))
    (n : Option Node) (path : List Seg) (w' : W) :
    S.edit zero enter (some w) fn n path = .ok w' ↔
      ∃ v', Edited fn path n v' ∧ S.child (some w) v' = .ok w' := by
  match path, n with
  | [], n =>
    show Res.bind (fn n) _ = _ ↔ ∃ v', fn n = .ok v' ∧ _
    exact Res.bind_eq_ok
  | g :: p, none =>
    constructor
    · intro h; cases h
    · rintro ⟨v', h, -⟩
      exact h.elim
  | g :: p, some n =>
    rw [S.edit_deep zero fn enter (some w) n g p _ _ (hE p g.string) (hQ _)]
    have hrun : ∀ es, S.child (some w) (.map es) = S.run es w 0 := by
      intro es
      rw [S.child_some, hself]
      rfl
    constructor
    · rintro ⟨es, es', h1, h2, h3⟩
      exact ⟨.map es', Or.inl ⟨es, es', h1, h2, rfl⟩, (hrun es').trans h3⟩
    · rintro ⟨v', ⟨es, es', h1, h2, rfl⟩ | ⟨ns, ns', i, h1, h2, h3, rfl⟩, h4⟩
      · exact ⟨es, es', h1, h2, (hrun es').symm.trans h4⟩
      · rw [S.child_some, hselfl] at h4
        cases h4

theorem leafEdit_ok {α : Type} (assign : Node → Res α) (fn : Change)
    (hm : ∀ es a, assign (.map es) ≠ .ok a) (hl : ∀ ns a, assign (.list ns) ≠ .ok a)
    (n : Option Node) (path : List Seg) (a : α) :
    leafEdit assign fn n path = .ok a ↔ ∃ v', Edited fn path n v' ∧ assign v' = .ok a := by
  match path, n with
  | [], n =>
    show Res.bind (fn n) _ = _ ↔ ∃ v', fn n = .ok v' ∧ _
    exact Res.bind_eq_ok
  | g :: p, none =>
    constructor
    · intro h; cases h
    · rintro ⟨v', h, -⟩
      exact h.elim
  | g :: p, some n =>
    constructor
    · intro h; cases h
    · rintro ⟨v', ⟨es, es', h1, h2, rfl⟩ | ⟨ns, ns', i, h1, h2, h3, rfl⟩, h4⟩
      · exact absurd h4 (hm _ _)
      · exact absurd h4 (hl _ _)

/-! ## Lists -/

theorem editElems_true {α : Type} (f : Node → Res α) (enter : Option Node → Res α) (ti : Int)
    (ns : List Node) (i : Nat) (hi : ti < i) (acc : List α) :
    editElems f enter ti i ns true acc = assignElems f ns acc := by
  induction ns generalizing i acc with
  | nil => rfl
  | cons n r ih =>
    unfold editElems assignElems
    rw [if_neg (by omega)]
    congr 1
    funext a
    exact ih (i + 1) (by omega) _

theorem assignElems_append {α : Type} (f : Node → Res α) (a b : List Node) (acc : List α) :
    assignElems f (a ++ b) acc = assignElems f a acc >>= assignElems f b := by
  induction a generalizing acc with
  | nil => rfl
  | cons n r ih =>
    show (f n >>= _) = ((f n >>= _) >>= _)
    cases f n with
    | ok x => exact ih _
    | err e => rfl
    | panic => rfl

theorem editElems_ok {α : Type} (f : Node → Res α) (enter : Option Node → Res α)
    (R : Option Node → Node → Prop) (hR : ∀ n a, enter n = .ok a ↔ ∃ v', R n v' ∧ f v' = .ok a)
    (ti : Int) (ns : List Node) (i : Nat) (acc l : List α) :
    editElems f enter ti i ns false acc = .ok l ↔
      ∃ ns', ((∃ pre v post v', ns = pre ++ v :: post ∧ ti = i + pre.length ∧ R (some v) v' ∧
          ns' = pre ++ v' :: post) ∨
        ((ti = i + ns.length ∨ ti < 0) ∧ ∃ v', R none v' ∧ ns' = ns ++ [v'])) ∧
        assignElems f ns' acc = .ok l := by
  induction ns generalizing i acc with
  | nil =>
    unfold editElems
    split
    · rename_i hti
      constructor
      · intro h
        obtain ⟨a, h1, h2⟩ := Res.bind_eq_ok.1 h
        obtain ⟨v', h3, h4⟩ := (hR none a).1 h1
        refine ⟨[v'], Or.inr ⟨?_, v', h3, rfl⟩, ?_⟩
        · simp only [List.length_nil]
          omega
        · unfold assignElems
          rw [h4]
          exact h2
      · rintro ⟨ns', ⟨pre, v, post, v', h, -⟩ | ⟨-, v', h3, rfl⟩, h⟩
        · cases pre <;> cases h
        · obtain ⟨a, h1, h2⟩ := Res.bind_eq_ok.1 (show (f v' >>= _) = _ from h)
          rw [(hR none a).2 ⟨v', h3, h1⟩]
          exact h2
    · rename_i hti
      constructor
      · intro h; cases h
      · rintro ⟨ns', ⟨pre, v, post, v', h, -⟩ | ⟨h0, v', h3, rfl⟩, h⟩
        · cases pre <;> cases h
        · simp only [List.length_nil] at h0
          omega
  | cons n r ih =>
    unfold editElems
    split
    · rename_i hti
      constructor
      · intro h
        obtain ⟨a, h1, h2⟩ := Res.bind_eq_ok.1 h
        obtain ⟨v', h3, h4⟩ := (hR (some n) a).1 h1
        rw [editElems_true _ _ _ _ _ (by omega)] at h2
        refine ⟨v' :: r, Or.inl ⟨[], n, r, v', rfl, by simpa using hti, h3, rfl⟩, ?_⟩
        unfold assignElems
        rw [h4]
        exact h2
      · rintro ⟨ns', ⟨pre, v, post, v', h, h0, h3, rfl⟩ | ⟨h0, v', h3, rfl⟩, h5⟩
        · have : pre = [] := by
            cases pre with
            | nil => rfl
            | cons x y =>
              simp only [List.length_cons] at h0
              omega
          subst this
          cases h
          obtain ⟨a, h1, h2⟩ := Res.bind_eq_ok.1 (show (f v' >>= _) = _ from h5)
          rw [(hR (some n) a).2 ⟨v', h3, h1⟩, Res.bind_ok, editElems_true _ _ _ _ _ (by omega)]
          exact h2
        · simp only [List.length_cons] at h0
          omega
    · rename_i hti
      constructor
      · intro h
        obtain ⟨a, h1, h2⟩ := Res.bind_eq_ok.1 h
        obtain ⟨ns', h3, h4⟩ := (ih (i + 1) _).1 h2
        refine ⟨n :: ns', ?_, ?_⟩
        · rcases h3 with ⟨pre, v, post, v', rfl, h6, h7, rfl⟩ | ⟨h6, v', h7, rfl⟩
          · exact Or.inl ⟨n :: pre, v, post, v', rfl,
              by simp only [List.length_cons]; omega, h7, rfl⟩
          · exact Or.inr ⟨by simp only [List.length_cons]; omega, v', h7, rfl⟩
        · unfold assignElems
          rw [h1]
          exact h4
      · rintro ⟨ns', h3, h5⟩
        have : ∃ ns1, ns' = n :: ns1 ∧
            ((∃ pre v post v', r = pre ++ v :: post ∧ ti = ((i + 1 : Nat) : Int) + pre.length ∧
              R (some v) v' ∧ ns1 = pre ++ v' :: post) ∨
            ((ti = ((i + 1 : Nat) : Int) + r.length ∨ ti < 0) ∧
              ∃ v', R none v' ∧ ns1 = r ++ [v'])) := by
          rcases h3 with ⟨pre, v, post, v', h, h6, h7, rfl⟩ | ⟨h6, v', h7, rfl⟩
          · cases pre with
            | nil =>
              simp only [List.length_nil] at h6
              omega
            | cons x pre =>
              cases h
              exact ⟨_, rfl, Or.inl ⟨pre, v, post, v', rfl,
                by simp only [List.length_cons] at h6; omega, h7, rfl⟩⟩
          · exact ⟨_, rfl, Or.inr ⟨by simp only [List.length_cons] at h6; omega, v', h7, rfl⟩⟩
        obtain ⟨ns1, rfl, h8⟩ := this
        obtain ⟨a, h1, h2⟩ := Res.bind_eq_ok.1 (show (f n >>= _) = _ from h5)
        rw [h1]
        exact (ih (i + 1) _).2 ⟨ns1, h8, h2⟩

theorem listPlace_iff (g : Seg) (R : Option Node → Node → Prop) (ns ns' : List Node) :
    (∃ i, ListPlace g ns.length i ∧ EditList R i ns ns') ↔
      ∃ ti, listSeg g = .ok ti ∧
        ((∃ pre v post v', ns = pre ++ v :: post ∧ ti = pre.length ∧ R (some v) v' ∧
          ns' = pre ++ v' :: post) ∨
        ((ti = ns.length ∨ ti < 0) ∧ ∃ v', R none v' ∧ ns' = ns ++ [v'])) := by
  unfold ListPlace EditList listSeg
  by_cases hd : g.string = b!"-"
  · simp only [if_pos hd]
    constructor
    · rintro ⟨i, ⟨-, rfl⟩ | ⟨h, -⟩, h2⟩
      · refine ⟨-1, rfl, ?_⟩
        rcases h2 with ⟨pre, v, post, v', rfl, h3, -⟩ | ⟨-, h3⟩
        · simp only [List.length_append, List.length_cons] at h3
          omega
        · exact Or.inr ⟨Or.inr (by omega), h3⟩
      · exact absurd hd h
    · rintro ⟨ti, h1, h2⟩
      cases h1
      rcases h2 with ⟨pre, v, post, v', rfl, h3, -⟩ | ⟨-, h3⟩
      · omega
      · exact ⟨ns.length, Or.inl ⟨hd, rfl⟩, Or.inr ⟨rfl, h3⟩⟩
  · simp only [if_neg hd]
    constructor
    · rintro ⟨i, ⟨h, -⟩ | ⟨-, z, hz, h1⟩, h2⟩
      · exact absurd h hd
      · refine ⟨z, hz, ?_⟩
        rcases h2 with ⟨pre, v, post, v', rfl, h3, h4⟩ | ⟨h3, h4⟩
        · left
          refine ⟨pre, v, post, v', rfl, ?_, h4⟩
          simp only [List.length_append, List.length_cons] at h1
          omega
        · right
          exact ⟨by omega, h4⟩
    · rintro ⟨ti, h1, h2⟩
      rcases h2 with ⟨pre, v, post, v', rfl, h3, h4⟩ | ⟨h3, h4⟩
      · refine ⟨pre.length, Or.inr ⟨hd, ti, h1, Or.inr ⟨h3, ?_⟩⟩,
          Or.inl ⟨pre, v, post, v', rfl, rfl, h4⟩⟩
        simp only [List.length_append]
        omega
      · exact ⟨ns.length, Or.inr ⟨hd, ti, h1, by omega⟩, Or.inr ⟨rfl, h4⟩⟩

theorem Node.mapIterator_none_of_list {n : Node} {es} (h : n.listIterator = some es) :
    n.mapIterator = none := by
  cases n with
  | list => rfl
  | own v => cases v <;> first | rfl | cases h
  | repr v => cases v <;> first | rfl | cases h
  | _ => cases h

/-- `focusedTransform` on an assembler of an empty list: assigning the edited node. -/
theorem editList_ok {α : Type} (self : Node → Option (List α)) (f : Node → Res α)
    (hself : ∀ ns, self (.list ns) = none) (hselfm : ∀ es, self (.map es) = none)
    (enter : List Seg → Option Node → Res α) (fn : Change)
    (hR : ∀ p n a, enter p n = .ok a ↔ ∃ v', Edited fn p n v' ∧ f v' = .ok a)
    (n : Option Node) (path : List Seg) (l : List α) :
    editList (assignList self f []) f enter fn n path = .ok l ↔
      ∃ v', Edited fn path n v' ∧ assignList self f [] v' = .ok l := by
  match path, n with
  | [], n =>
    show Res.bind (fn n) _ = _ ↔ ∃ v', fn n = .ok v' ∧ _
    exact Res.bind_eq_ok
  | g :: p, none =>
    constructor
    · intro h; cases h
    · rintro ⟨v', h, -⟩
      exact h.elim
  | g :: p, some n =>
    have hrun : ∀ ns, assignList self f [] (.list ns) = assignElems f ns [] := by
      intro ns
      unfold assignList
      rw [hself]
      rfl
    have hmap : ∀ es, assignList self f [] (.map es) ≠ .ok l := by
      intro es h
      unfold assignList at h
      rw [hselfm] at h
      cases h
    have hloop := fun ti ns => editElems_ok f (enter p) (Edited fn p) (hR p) ti ns 0 [] l
    constructor
    · intro h
      unfold editList at h
      dsimp only at h
      split at h
      · rename_i hk
        obtain ⟨ns, hns⟩ := Node.listIterator_of_kind hk
        rw [hns] at h
        dsimp only at h
        obtain ⟨ti, h1, h2⟩ := Res.bind_eq_ok.1 h
        obtain ⟨ns', h3, h4⟩ := (hloop ti ns).1 h2
        obtain ⟨i, h5, h6⟩ := (listPlace_iff g (Edited fn p) ns ns').2
          ⟨ti, h1, by simpa using h3⟩
        exact ⟨.list ns', Or.inr ⟨ns, ns', i, hns, h5, h6, rfl⟩, (hrun _).trans h4⟩
      · cases h
    · rintro ⟨v', ⟨es, es', h1, h2, rfl⟩ | ⟨ns, ns', i, h1, h2, h3, rfl⟩, h4⟩
      · exact absurd h4 (hmap _)
      · obtain ⟨ti, h5, h6⟩ := (listPlace_iff g (Edited fn p) ns ns').1 ⟨i, h2, h3⟩
        unfold editList
        dsimp only
        rw [if_pos (Node.kind_of_listIterator h1), h1]
        dsimp only
        rw [h5, Res.bind_ok]
        exact (hloop ti ns).2 ⟨ns', by simpa using h6, (hrun _).symm.trans h4⟩

end Verif
