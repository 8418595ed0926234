import Verif.Proofs.Assemble

/-!
# From runs to nodes

`AssignNode` followed by `Build`, for a struct type whose assignments respect a
per-field description.
-/

namespace Verif

open Spec

variable {W : Type}

/-- `w` has, field by field, what the entries of `n` say. -/
def Struct.Denotes (S : Struct W) (P : Bytes → Option Node → W → Prop) (n : Node) (w : W) : Prop :=
  ∃ es, n.mapIterator = some es ∧
    (es.map Prod.fst).Nodup ∧
    (∀ k ∈ es.map Prod.fst, k ∈ S.fields.map Field.name) ∧
    (∀ f ∈ S.fields, f.required = true → f.name ∈ es.map Prod.fst) ∧
    (∀ k v, (k, v) ∈ es → P k (some v) w) ∧
    (∀ f ∈ S.fields, f.name ∉ es.map Prod.fst → P f.name none w)

theorem Struct.child_denotes (S : Struct W) (hn : (S.fields.map Field.name).Nodup)
    (P : Bytes → Option Node → W → Prop) (hP : S.Respects P)
    (hself : ∀ n v, S.self n = some v → S.Denotes P n v)
    {w : W} (h0 : ∀ f ∈ S.fields, P f.name none w) {n : Node} {w' : W}
    (h : S.child (some w) n = .ok w') : S.Denotes P n w' := by
  rw [S.child_some] at h
  split at h
  · cases h
  · split at h
    · rename_i v hv
      cases h
      exact hself _ _ hv
    · split at h
      · cases h
      · split at h
        · cases h
        · rename_i es hes
          obtain ⟨h1, h2, h3, h4, h5⟩ := S.run_ok hn P hP
            (fun i f hf _ => h0 f (List.mem_of_getElem? hf)) h
          refine ⟨es, hes, h1, fun k hk => (h2 k hk).1, ?_, h4, fun f hf hk => h5 _ _ hk (h0 f hf)⟩
          intro f hf hr
          obtain ⟨i, hi⟩ := List.mem_iff_getElem?.1 hf
          rcases h3 i f hi hr with h | h
          · rw [Nat.zero_testBit] at h; cases h
          · exact h

theorem Struct.child_exists (S : Struct W) (hn : (S.fields.map Field.name).Nodup)
    (P : Bytes → Option Node → W → Prop) (hP : S.Respects P)
    {w : W} (h0 : ∀ f ∈ S.fields, P f.name none w) {n : Node} {es : List (Bytes × Node)}
    (hes : n.mapIterator = some es)
    (h1 : (es.map Prod.fst).Nodup)
    (h2 : ∀ k ∈ es.map Prod.fst, k ∈ S.fields.map Field.name)
    (h3 : ∀ f ∈ S.fields, f.required = true → f.name ∈ es.map Prod.fst)
    (h5 : ∀ f ∈ S.fields, ∀ v, (f.name, v) ∈ es → ∀ w, P f.name none w →
      ∃ w', f.assign w v = .ok w') :
    ∃ w', S.child (some w) n = .ok w' := by
  rw [S.child_some]
  have hnull : ¬ n.isNull = true := by
    intro h
    cases n <;> first | (cases h; done) | cases hes
  rw [if_neg hnull]
  cases hs : S.self n with
  | some v => exact ⟨v, rfl⟩
  | none =>
    dsimp only
    rw [if_neg (not_not_intro (Node.kind_of_mapIterator hes)), hes]
    exact S.run_total hn P hP (fun i f hf _ => h0 f (List.mem_of_getElem? hf)) h1 h2
      (fun _ _ _ _ => Nat.zero_testBit _)
      (fun i f hf hr => Or.inr (h3 f (List.mem_of_getElem? hf) hr)) h5

/-- A child assembler with a nil pointer: only values of the type itself are
accepted; the first known key of anything else is a nil dereference. -/
theorem Struct.child_none (S : Struct W) (n : Node) :
    S.child none n =
      if n.isNull then .err .wrongKind
      else match S.self n with
        | some v => .ok v
        | none =>
          if n.kind ≠ .map then .err .wrongKind
          else match n.mapIterator with
            | none => .panic
            | some [] => if S.sufficient ≠ 0 then .err .missingField else .panic
            | some ((k, _) :: _) => if S.find k = none then .err .invalidKey else .panic := by
  unfold Struct.child Struct.assignNode
  by_cases hnull : n.isNull
  · rw [if_pos hnull, if_pos hnull]; rfl
  · rw [if_neg hnull, if_neg hnull]
    cases hs : S.self n with
    | some v => rfl
    | none =>
      dsimp only
      by_cases hk : n.kind ≠ .map
      · rw [if_pos hk, if_pos hk]; rfl
      · rw [if_neg hk, if_neg hk]
        cases hm : n.mapIterator with
        | none => rfl
        | some es =>
          cases es with
          | nil =>
            dsimp only
            unfold Struct.assignEntries Struct.finish
            rw [S.ready_between _ (Or.inl ⟨rfl, rfl⟩), Res.bind_ok]
            show (Res.bind (if (0 : Nat) &&& S.sufficient ≠ S.sufficient then _ else _) _) = _
            rw [Nat.zero_and]
            by_cases h : S.sufficient ≠ 0
            · rw [if_pos h, if_pos (Ne.symm h)]; rfl
            · rw [if_neg h, if_neg (fun h' => h (Ne.symm h'))]; rfl
          | cons e r =>
            obtain ⟨k, v⟩ := e
            dsimp only
            unfold Struct.assignEntries Struct.assembleKey
            rw [S.ready_between _ (Or.inl ⟨rfl, rfl⟩), Res.bind_ok, Res.bind_ok]
            unfold Struct.keyAssignNode
            simp only [Node.asString, Res.bind_ok, Struct.keyAssignString, ne_eq,
              not_true_eq_false, if_false]
            cases hf : S.find k with
            | none => simp
            | some i =>
              simp only [Asm.fresh, Nat.zero_and, not_true_eq_false, if_false, Res.bind_ok,
                Struct.assembleValue]
              simp

end Verif

namespace Verif

variable {W : Type}

/-- A run does not panic if no field assignment does. -/
theorem Struct.run_no_panic (S : Struct W) (hn : (S.fields.map Field.name).Nodup)
    (P : Bytes → Option Node → W → Prop) (hP : S.Respects P)
    {es : List (Bytes × Node)} {w : W} {s : Nat}
    (h0 : ∀ i f, S.fields[i]? = some f → s.testBit i = false → P f.name none w)
    (h5 : ∀ f ∈ S.fields, ∀ v, (f.name, v) ∈ es → ∀ w, P f.name none w → f.assign w v ≠ .panic) :
    S.run es w s ≠ .panic := by
  induction es generalizing w s with
  | nil =>
    unfold Struct.run
    split <;> exact fun h => by cases h
  | cons e r ih =>
    obtain ⟨k, v⟩ := e
    unfold Struct.run
    cases hf : S.find k with
    | none => exact fun h => by cases h
    | some i =>
      dsimp only
      split
      · exact fun h => by cases h
      · rename_i hb
        have hb' : s.testBit i = false := by
          cases hbi : s.testBit i with
          | false => rfl
          | true => exact absurd ((and_bit_ne_zero s i).2 hbi) hb
        obtain ⟨f, hi, hname⟩ := S.find_lt hf
        rw [hi]
        dsimp only
        have hmem := List.mem_of_getElem? hi
        have hnp := h5 f hmem v (by rw [hname]; exact List.mem_cons_self) w (h0 i f hi hb')
        cases ha : f.assign w v with
        | panic => exact absurd ha hnp
        | err e => exact fun h => by cases h
        | ok w1 =>
          rw [Res.bind_ok]
          obtain ⟨p1, p2⟩ := hP f hmem w v w1 (h0 i f hi hb') ha
          have hbits : ∀ j, (s + 1 <<< i).testBit j = (decide (i = j) || s.testBit j) := by
            intro j
            rw [Nat.one_shiftLeft, testBit_add_two_pow _ _ _ hb']
          refine ih ?_ (fun f hf v hv w hw => h5 f hf v (List.mem_cons_of_mem _ hv) w hw)
          intro j g hg hjb
          rw [hbits, Bool.or_eq_false_iff] at hjb
          refine p2 _ _ (fun hne => ?_) (h0 j g hg hjb.2)
          exact of_decide_eq_false hjb.1 (S.name_inj hn hg hi hne).symm

theorem Struct.child_no_panic (S : Struct W) (hn : (S.fields.map Field.name).Nodup)
    (P : Bytes → Option Node → W → Prop) (hP : S.Respects P)
    {w : W} (h0 : ∀ f ∈ S.fields, P f.name none w) {n : Node}
    (h5 : ∀ es, n.mapIterator = some es → ∀ f ∈ S.fields, ∀ v, (f.name, v) ∈ es →
      ∀ w, P f.name none w → f.assign w v ≠ .panic) :
    S.child (some w) n ≠ .panic := by
  rw [S.child_some]
  by_cases hnull : n.isNull
  · rw [if_pos hnull]; exact fun h => by cases h
  · rw [if_neg hnull]
    cases hs : S.self n with
    | some v => exact fun h => by cases h
    | none =>
      dsimp only
      by_cases hk : n.kind ≠ .map
      · rw [if_pos hk]; exact fun h => by cases h
      · rw [if_neg hk]
        obtain ⟨es, hes⟩ := Node.mapIterator_of_kind (Decidable.not_not.1 hk)
        rw [hes]
        exact S.run_no_panic hn P hP (fun i f hf _ => h0 f (List.mem_of_getElem? hf)) (h5 es hes)

end Verif
