import Verif.Model.Person
import Verif.Spec.Person

namespace Verif

open Spec

/-- Join with single spaces: inverse of `splitSp`. -/
def joinSp : List Bytes → Bytes
  | [] => []
  | [p] => p
  | p :: q :: r => p ++ SP :: joinSp (q :: r)

theorem splitSp_ne_nil (l : Bytes) : splitSp l ≠ [] := by
  cases l with
  | nil => simp [splitSp]
  | cons c cs =>
    simp only [splitSp]
    split
    · simp
    · split <;> simp

theorem splitSp_word (w : Bytes) (h : SP ∉ w) : splitSp w = [w] := by
  induction w with
  | nil => rfl
  | cons c cs ih =>
    simp only [List.mem_cons, not_or] at h
    simp [splitSp, Ne.symm h.1, ih h.2]

theorem splitSp_append (a b : Bytes) : splitSp (a ++ SP :: b) = splitSp a ++ splitSp b := by
  induction a with
  | nil => simp [splitSp]
  | cons c cs ih =>
    simp only [List.cons_append, splitSp]
    split
    · simp [ih]
    · rw [ih]
      cases h : splitSp cs with
      | nil => exact absurd h (splitSp_ne_nil cs)
      | cons p ps => simp

theorem joinSp_splitSp (l : Bytes) : joinSp (splitSp l) = l := by
  induction l with
  | nil => rfl
  | cons c cs ih =>
    simp only [splitSp]
    split
    · rename_i hc
      cases h : splitSp cs with
      | nil => exact absurd h (splitSp_ne_nil cs)
      | cons p ps => rw [h] at ih; simp [joinSp, ih, hc]
    · cases h : splitSp cs with
      | nil => exact absurd h (splitSp_ne_nil cs)
      | cons p ps =>
        rw [h] at ih
        cases ps with
        | nil => simpa [joinSp] using ih
        | cons q qs => simpa [joinSp] using ih

theorem splitSp_parts (l : Bytes) : ∀ p ∈ splitSp l, SP ∉ p := by
  induction l with
  | nil => simp [splitSp]
  | cons c cs ih =>
    simp only [splitSp]
    split
    · intro p hp
      rcases List.mem_cons.1 hp with rfl | hp
      · simp
      · exact ih p hp
    · rename_i hc
      cases h : splitSp cs with
      | nil => exact absurd h (splitSp_ne_nil cs)
      | cons q qs =>
        rw [h] at ih
        intro p hp
        rcases List.mem_cons.1 hp with rfl | hp
        · have := ih q (by simp)
          simp [this, eq_comm]; exact hc
        · exact ih p (by simp [hp])

/-! ### the name loop -/

/-- Parts joined with a space after each. -/
def spaced (ps : List Bytes) : Bytes := ps.flatMap (· ++ [SP])

theorem spaced_eq (ps : List Bytes) (h : ps ≠ []) : spaced ps = joinSp ps ++ [SP] := by
  induction ps with
  | nil => exact absurd rfl h
  | cons p ps ih =>
    cases ps with
    | nil => simp [spaced, joinSp]
    | cons q qs =>
      have := ih (by simp)
      simp only [spaced, List.flatMap_cons] at this ⊢
      rw [this]
      simp [joinSp]

/-- Once the name is non-empty the loop copies parts up to one starting with '<'. -/
theorem nameLoop_nonempty (ps rest : List Bytes) (p : Bytes) (acc : Bytes) (hacc : acc ≠ [])
    (hps : ∀ q ∈ ps, q.head? ≠ some LT) (hp : p.head? = some LT) :
    nameLoop (ps ++ p :: rest) acc = .ok (acc ++ spaced ps, p :: rest) := by
  induction ps generalizing acc with
  | nil =>
    cases p with
    | nil => simp at hp
    | cons c cs =>
      simp only [List.head?_cons, Option.some.injEq] at hp
      simp [nameLoop, first, hp, spaced]
  | cons q qs ih =>
    have hq := hps q (by simp)
    have ih' := fun acc hacc => ih acc hacc (fun x hx => hps x (by simp [hx]))
    have hpos : acc.length > 0 := List.length_pos_iff.2 hacc
    cases q with
    | nil =>
      simp only [List.cons_append, nameLoop, List.length_nil, ne_eq, not_true_eq_false, if_false, hpos, if_true]
      rw [ih' _ (by simp)]
      simp [spaced]
    | cons c cs =>
      have hc : c ≠ LT := by simpa using hq
      simp only [List.cons_append, nameLoop, List.length_cons, ne_eq, Nat.add_one_ne_zero, not_false_eq_true,
        if_true, first, Res.bind_ok, hc, if_false]
      have := ih' (acc ++ (c :: cs ++ [SP])) (by simp)
      simp only [List.cons_append] at this
      rw [this]
      simp [spaced]

/-- The name loop on all the parts of a name followed by a part starting with '<'. -/
theorem nameLoop_name (name : Bytes) (rest : List Bytes) (p : Bytes)
    (hsp : name.head? ≠ some SP)
    (hps : ∀ q ∈ splitSp name, q.head? ≠ some LT) (hp : p.head? = some LT) :
    nameLoop (splitSp name ++ p :: rest) [] =
      .ok (if name = [] then [] else name ++ [SP], p :: rest) := by
  cases name with
  | nil =>
    cases p with
    | nil => simp at hp
    | cons c cs =>
      simp only [List.head?_cons, Option.some.injEq] at hp
      simp [splitSp, nameLoop, first, hp]
  | cons a as =>
    have ha : a ≠ SP := by simpa using hsp
    cases h : splitSp (a :: as) with
    | nil => exact absurd h (splitSp_ne_nil _)
    | cons q qs =>
      have hj := joinSp_splitSp (a :: as)
      have hq : ∃ q', q = a :: q' := by
        simp only [splitSp, if_neg ha] at h
        cases h' : splitSp as with
        | nil => exact absurd h' (splitSp_ne_nil _)
        | cons x xs => rw [h'] at h; simp at h; exact ⟨x, h.1.symm⟩
      obtain ⟨q', rfl⟩ := hq
      rw [h] at hj hps
      have hhd := hps (a :: q') (by simp)
      have hal : a ≠ LT := by simpa using hhd
      have step := nameLoop_nonempty qs rest p (a :: q' ++ [SP]) (by simp)
        (fun x hx => hps x (by simp [hx])) hp
      simp only [List.cons_append, nameLoop, List.length_cons, ne_eq, Nat.add_one_ne_zero,
        not_false_eq_true, if_true, first, Res.bind_ok, hal, if_false, List.nil_append,
        reduceCtorEq] at step ⊢
      rw [step]
      have hs := spaced_eq ((a :: q') :: qs) (by simp)
      rw [hj] at hs
      simp only [spaced, List.flatMap_cons] at hs
      simp only [spaced, Res.ok.injEq, Prod.mk.injEq, and_true]
      simpa using hs

/-! ### infixes and parts -/

theorem splitSp_cons_ne (c : UInt8) (cs p : Bytes) (ps : List Bytes) (hc : c ≠ SP)
    (h : splitSp cs = p :: ps) : splitSp (c :: cs) = (c :: p) :: ps := by
  simp [splitSp, hc, h]

theorem splitSp_head (l p : Bytes) (ps : List Bytes) (h : splitSp l = p :: ps) (x : UInt8)
    (hx : x ≠ SP) : p.head? = some x ↔ l.head? = some x := by
  cases l with
  | nil => simp [splitSp] at h; simp [h.1]
  | cons c cs =>
    by_cases hc : c = SP
    · simp only [splitSp, if_pos hc, List.cons.injEq] at h
      simp [← h.1, hc, Ne.symm hx]
    · cases h' : splitSp cs with
      | nil => exact absurd h' (splitSp_ne_nil _)
      | cons y ys =>
        rw [splitSp_cons_ne c cs y ys hc h'] at h
        simp only [List.cons.injEq] at h
        simp [← h.1]

theorem pair_prefix (a b : UInt8) (l : Bytes) (c : UInt8) :
    [a, b] <+: c :: l ↔ a = c ∧ l.head? = some b := by
  rw [List.cons_prefix_cons]
  cases l with
  | nil => simp
  | cons d ds => simp [List.cons_prefix_cons, eq_comm]

theorem open_iff (l : Bytes) :
    ¬ [SP, LT] <:+: l ↔ ∀ q ∈ (splitSp l).tail, q.head? ≠ some LT := by
  induction l with
  | nil => simp [splitSp]
  | cons c cs ih =>
    rw [List.infix_cons_iff, pair_prefix, not_or, ih]
    cases h : splitSp cs with
    | nil => exact absurd h (splitSp_ne_nil _)
    | cons p ps =>
      have hh := splitSp_head cs p ps h LT (by decide)
      by_cases hc : c = SP
      · simp only [splitSp, if_pos hc, h, List.tail_cons, List.mem_cons, forall_eq_or_imp]
        rw [Ne, hh]; simp [hc]
      · rw [splitSp_cons_ne c cs p ps hc h]
        simp [Ne.symm hc]

theorem close_iff (l : Bytes) :
    ¬ [GT, SP] <:+: l ↔ ∀ q ∈ (splitSp l).dropLast, q.getLast? ≠ some GT := by
  induction l with
  | nil => simp [splitSp]
  | cons c cs ih =>
    rw [List.infix_cons_iff, pair_prefix, not_or, ih]
    by_cases hc : c = SP
    · subst hc
      cases h : splitSp cs with
      | nil => exact absurd h (splitSp_ne_nil _)
      | cons p ps =>
        simp [splitSp, h]
        intro _ hgs
        exact absurd hgs (by decide)
    · cases cs with
      | nil => simp [splitSp, hc]
      | cons d ds =>
        by_cases hd : d = SP
        · subst hd
          have h : splitSp (SP :: ds) = [] :: splitSp ds := by simp [splitSp]
          rw [splitSp_cons_ne c _ _ _ hc h, h]
          cases h' : splitSp ds with
          | nil => exact absurd h' (splitSp_ne_nil _)
          | cons p ps => simp [List.dropLast, eq_comm]
        · cases h' : splitSp ds with
          | nil => exact absurd h' (splitSp_ne_nil _)
          | cons p ps =>
            have h := splitSp_cons_ne d ds p ps hd h'
            rw [splitSp_cons_ne c _ _ _ hc h, h]
            cases ps with
            | nil => simp [hd]
            | cons q qs => simp [List.dropLast, hd]

/-! ### the email loop -/

/-- Strip one leading '<'. -/
def strip1 (p : Bytes) : Bytes := if p.head? = some LT then p.tail else p

theorem emailLoop_cons (part : Bytes) (rest : List Bytes) (acc : Bytes) :
    emailLoop (part :: rest) acc =
      if (strip1 part).getLast? = some GT then .ok (acc ++ (strip1 part).dropLast, rest)
      else emailLoop rest (acc ++ (strip1 part ++ [SP])) := by
  have key : ∀ q : Bytes,
      (if q.length > 0 then do
        let c ← last q
        if c = GT then do
          let p ← chop q
          .ok (acc ++ p, rest)
        else emailLoop rest (acc ++ (q ++ [SP]))
      else emailLoop rest (acc ++ (q ++ [SP]))) =
      if q.getLast? = some GT then .ok (acc ++ q.dropLast, rest)
      else emailLoop rest (acc ++ (q ++ [SP])) := by
    intro q
    cases h : q.getLast? with
    | none =>
      have : q = [] := by simpa using h
      subst this; simp
    | some x =>
      have hq : q ≠ [] := by rintro rfl; simp at h
      have hl : q.length > 0 := List.length_pos_iff.2 hq
      have hl' : q.length ≠ 0 := by omega
      simp only [hl, if_true, last, h, Res.bind_ok, chop, hl', if_false, Option.some.injEq]
  cases part with
  | nil => simp [emailLoop, strip1]
  | cons c cs =>
    by_cases hc : c = LT
    · have := key cs
      subst hc
      simp only [emailLoop, List.length_cons, Nat.zero_lt_succ, gt_iff_lt, if_true, first, Res.bind_ok,
        sliceFrom, Nat.le_add_left, List.drop_succ_cons, List.drop_zero] at this ⊢
      simpa [strip1] using this
    · have := key (c :: cs)
      simp only [emailLoop, List.length_cons, Nat.zero_lt_succ, gt_iff_lt, if_true, first, Res.bind_ok,
        hc, if_false] at this ⊢
      rw [this]
      simp [strip1, hc]

/-- If no part but the last ends with '>' and no part starts with '<', the email
loop returns the parts as they are. -/
theorem emailLoop_parts (ps : List Bytes) (q : Bytes) (T : List Bytes) (acc : Bytes)
    (hs : ∀ p ∈ ps, p.head? ≠ some LT) (he : ∀ p ∈ ps, p.getLast? ≠ some GT)
    (hq : q.head? ≠ some LT) :
    emailLoop (ps ++ (q ++ [GT]) :: T) acc = .ok (acc ++ spaced ps ++ q, T) := by
  induction ps generalizing acc with
  | nil =>
    have h1 : strip1 (q ++ [GT]) = q ++ [GT] := by
      unfold strip1
      rw [if_neg]
      cases q with
      | nil => decide
      | cons c cs => simpa using hq
    simp [emailLoop_cons, h1, spaced]
  | cons p ps ih =>
    have hp : strip1 p = p := by simp [strip1, hs p (by simp)]
    rw [List.cons_append, emailLoop_cons, hp, if_neg (he p (by simp)),
      ih _ (fun x hx => hs x (by simp [hx])) (fun x hx => he x (by simp [hx]))]
    simp [spaced]

theorem strip1_length_le (p : Bytes) : (strip1 p).length ≤ p.length := by
  unfold strip1; split <;> simp

theorem strip1_length_eq (p : Bytes) (h : p.length ≤ (strip1 p).length) : p.head? ≠ some LT := by
  intro hh
  unfold strip1 at h
  rw [if_pos hh] at h
  cases p with
  | nil => simp at hh
  | cons c cs => simp at h; omega

/-- Length bound for the email loop; the bound is met only if nothing was
stripped and no part ended early. -/
theorem emailLoop_bound (ps : List Bytes) (q : Bytes) (T : List Bytes) (acc em : Bytes)
    (r : List Bytes) (h : emailLoop (ps ++ (q ++ [GT]) :: T) acc = .ok (em, r)) :
    em.length ≤ acc.length + (spaced ps).length + q.length ∧
    (em.length = acc.length + (spaced ps).length + q.length →
      (∀ p ∈ ps, p.head? ≠ some LT) ∧ (∀ p ∈ ps, p.getLast? ≠ some GT) ∧ q.head? ≠ some LT) := by
  induction ps generalizing acc with
  | nil =>
    simp only [List.nil_append, emailLoop_cons] at h
    have hg : (strip1 (q ++ [GT])).getLast? = some GT := by
      unfold strip1
      split
      · rename_i hh
        cases q with
        | nil => exact absurd hh (by decide)
        | cons c cs => simp
      · simp
    rw [if_pos hg] at h
    simp only [Res.ok.injEq, Prod.mk.injEq] at h
    obtain ⟨rfl, rfl⟩ := h
    have hl := strip1_length_le (q ++ [GT])
    simp only [List.length_append, List.length_dropLast, spaced, List.flatMap_nil, List.length_nil,
      List.length_singleton] at hl ⊢
    refine ⟨by omega, fun heq => ⟨by simp, by simp, ?_⟩⟩
    have hne : 0 < (strip1 (q ++ [GT])).length := by
      apply List.length_pos_iff.2; intro h0; rw [h0] at hg; simp at hg
    have := strip1_length_eq (q ++ [GT]) (by simp; omega)
    cases q with
    | nil => decide
    | cons c cs => simpa using this
  | cons p ps ih =>
    rw [List.cons_append, emailLoop_cons] at h
    have hl := strip1_length_le p
    have hsp : (spaced (p :: ps)).length = p.length + 1 + (spaced ps).length := by simp [spaced]; omega
    split at h
    · rename_i hg
      simp only [Res.ok.injEq, Prod.mk.injEq] at h
      obtain ⟨rfl, rfl⟩ := h
      rw [List.length_append, List.length_dropLast, hsp]
      refine ⟨by omega, fun heq => by omega⟩
    · rename_i hg
      have := ih _ h
      simp only [List.length_append, List.length_singleton] at this
      rw [hsp]
      refine ⟨by omega, fun heq => ?_⟩
      have h2 := this.2 (by omega)
      have hp := strip1_length_eq p (by omega)
      have hsp : strip1 p = p := by simp [strip1, hp]
      rw [hsp] at hg
      refine ⟨?_, ?_, h2.2.2⟩
      · intro x hx
        rcases List.mem_cons.1 hx with rfl | hx
        · exact hp
        · exact h2.1 x hx
      · intro x hx
        rcases List.mem_cons.1 hx with rfl | hx
        · exact hg
        · exact h2.2.1 x hx

/-! ### whole lines -/

/-- What follows the email in a person line. -/
def personTail (p : PersonInfo) : Bytes :=
  (if p.date ≠ [] then SP :: p.date else []) ++ (if p.timezone ≠ [] then SP :: p.timezone else [])

/-- Its space-separated parts. -/
def tailParts (p : PersonInfo) : List Bytes :=
  (if p.date ≠ [] then splitSp p.date else []) ++ (if p.timezone ≠ [] then splitSp p.timezone else [])

theorem splitSp_tail (x : Bytes) (p : PersonInfo) :
    splitSp (x ++ personTail p) = splitSp x ++ tailParts p := by
  unfold personTail tailParts
  by_cases hd : p.date = [] <;> by_cases ht : p.timezone = []
  · simp [hd, ht]
  · simp [hd, ht, splitSp_append]
  · simp [hd, ht, splitSp_append]
  · simp only [hd, ht, ne_eq, not_false_eq_true, if_true]
    rw [← List.append_assoc, splitSp_append, splitSp_append]
    simp

theorem gitString_eq (p : PersonInfo) :
    gitString p = p.name ++ SP :: ((LT :: (p.email ++ [GT])) ++ personTail p) := by
  simp [gitString, personTail]

theorem splitSp_gitString (p : PersonInfo) :
    splitSp (gitString p) = splitSp p.name ++ (splitSp (LT :: (p.email ++ [GT])) ++ tailParts p) := by
  rw [gitString_eq, splitSp_append, splitSp_tail]

theorem splitSp_concat (l : Bytes) (ps : List Bytes) (q : Bytes) (c : UInt8) (hc : c ≠ SP)
    (h : splitSp l = ps ++ [q]) : splitSp (l ++ [c]) = ps ++ [q ++ [c]] := by
  induction l generalizing ps q with
  | nil =>
    cases ps with
    | nil => simp [splitSp] at h; simp [splitSp, hc, h]
    | cons x xs => simp [splitSp] at h
  | cons d ds ih =>
    by_cases hd : d = SP
    · simp only [splitSp, hd, if_true, List.cons_append] at h ⊢
      cases ps with
      | nil =>
        simp only [List.nil_append, List.cons.injEq] at h
        exact absurd h.2 (splitSp_ne_nil _)
      | cons x xs =>
        simp only [List.cons_append, List.cons.injEq] at h
        rw [ih xs q h.2]; simp [h.1]
    · cases h' : splitSp ds with
      | nil => exact absurd h' (splitSp_ne_nil _)
      | cons x xs =>
        rw [splitSp_cons_ne d ds x xs hd h'] at h
        cases ps with
        | nil =>
          simp only [List.nil_append, List.cons.injEq] at h
          have hds : splitSp ds = [] ++ [x] := by rw [h', h.2]; rfl
          have := ih [] x hds
          rw [List.cons_append, splitSp_cons_ne d _ (x ++ [c]) [] hd (by simpa using this)]
          simp [← h.1]
        | cons y ys =>
          simp only [List.cons_append, List.cons.injEq] at h
          have hds : splitSp ds = (x :: ys) ++ [q] := by rw [h', h.2]; rfl
          have := ih (x :: ys) q hds
          rw [List.cons_append, splitSp_cons_ne d _ x (ys ++ [q ++ [c]]) hd (by simpa using this)]
          simp [← h.1]

/-- Parts of the bracketed email: one part, or a first, middle and last one. -/
theorem splitSp_email (em : Bytes) :
    (∃ e, splitSp em = [e] ∧ em = e ∧ splitSp (LT :: (em ++ [GT])) = [LT :: (e ++ [GT])]) ∨
    (∃ e ms l, splitSp em = e :: (ms ++ [l]) ∧ em = (e ++ [SP]) ++ spaced ms ++ l ∧
      splitSp (LT :: (em ++ [GT])) = (LT :: e) :: (ms ++ [l ++ [GT]])) := by
  have hj := joinSp_splitSp em
  cases h : splitSp em with
  | nil => exact absurd h (splitSp_ne_nil _)
  | cons e es =>
    rw [h] at hj
    rcases List.eq_nil_or_concat es with rfl | ⟨ms, l, rfl⟩
    · left
      refine ⟨e, rfl, hj.symm, ?_⟩
      have h1 := splitSp_concat em [] e GT (by decide) (by simpa using h)
      exact splitSp_cons_ne LT _ (e ++ [GT]) [] (by decide) (by simpa using h1)
    · right
      rw [List.concat_eq_append] at h hj
      refine ⟨e, ms, l, by simp, ?_, ?_⟩
      · have h1 := spaced_eq (e :: (ms ++ [l])) (by simp)
        rw [hj] at h1
        have h2 : (e ++ [SP]) ++ spaced ms ++ l ++ [SP] = em ++ [SP] := by
          rw [← h1]; simp [spaced]
        exact (List.append_cancel_right h2).symm
      · have h1 := splitSp_concat em (e :: ms) l GT (by decide) (by simpa using h)
        exact splitSp_cons_ne LT _ e (ms ++ [l ++ [GT]]) (by decide) (by simpa using h1)

theorem parsePersonInfo_unfold (w x : Bytes) (hw : SP ∉ w) :
    parsePersonInfo (w ++ SP :: x) =
      (if (splitSp x).length < 2 then .err .badPerson else (do
        let (name, rest) ← nameLoop (splitSp x) []
        let name ← (if name.length ≠ 0 then chop name else .ok [])
        let (email, rest) ← emailLoop rest []
        .ok (personRest name email rest))) := by
  unfold parsePersonInfo
  rw [splitSp_append, splitSp_word w hw]
  simp only [List.singleton_append, List.length_cons, List.drop_succ_cons, List.drop_zero]
  by_cases h : (splitSp x).length < 2
  · rw [if_pos h, if_pos (by omega)]
  · rw [if_neg h, if_neg (by omega)]

/-- Persons that satisfy the spec survive formatting and parsing. -/
theorem parse_gitString (w : Bytes) (p : PersonInfo) (hw : SP ∉ w) (h : PersonOk p) :
    parsePersonInfo (w ++ SP :: gitString p) = .ok p := by
  rw [parsePersonInfo_unfold w _ hw, splitSp_gitString]
  have hnp : ∀ q ∈ splitSp p.name, q.head? ≠ some LT := by
    have ho := (open_iff p.name).1 h.nameOpen
    cases hs : splitSp p.name with
    | nil => exact absurd hs (splitSp_ne_nil _)
    | cons q qs =>
      rw [hs] at ho
      intro x hx
      rcases List.mem_cons.1 hx with rfl | hx
      · rw [Ne, splitSp_head _ _ _ hs LT (by decide)]; exact h.nameStart.2
      · exact ho x hx
  have hlen : ∀ a b : List Bytes, a ≠ [] → b ≠ [] → ¬ (a ++ (b ++ tailParts p)).length < 2 := by
    intro a b ha hb
    have := List.length_pos_iff.2 ha
    have := List.length_pos_iff.2 hb
    simp only [List.length_append]; omega
  rw [if_neg (hlen _ _ (splitSp_ne_nil _) (splitSp_ne_nil _))]
  -- the email parts
  have htail : personRest p.name p.email (tailParts p) = p := by
    obtain ⟨n, e, d, t⟩ := p
    unfold tailParts
    have hd := h.dateWord
    have ht := h.tzWord
    have hdt := h.tzDate
    simp only at hd ht hdt ⊢
    by_cases hd0 : d = []
    · by_cases ht0 : t = []
      · simp [hd0, ht0, personRest]
      · exact absurd hd0 (hdt ht0)
    · by_cases ht0 : t = []
      · simp [hd0, ht0, splitSp_word d hd, personRest]
      · simp [hd0, ht0, splitSp_word d hd, splitSp_word t ht, personRest]
  have hname : (if (if p.name = [] then ([] : Bytes) else p.name ++ [SP]).length ≠ 0
      then chop (if p.name = [] then [] else p.name ++ [SP]) else .ok []) = .ok p.name := by
    by_cases hn : p.name = []
    · simp [hn]
    · simp [hn, chop]
  rcases splitSp_email p.email with ⟨e, _, he, hE⟩ | ⟨e, ms, l, hsp, he, hE⟩
  · rw [hE, List.singleton_append, nameLoop_name p.name _ _ h.nameStart.1 hnp (by simp)]
    simp only [Res.bind_ok, hname]
    rw [emailLoop_cons]
    have hst : strip1 (LT :: (e ++ [GT])) = e ++ [GT] := by simp [strip1]
    rw [hst, if_pos (by simp)]
    simp only [List.dropLast_concat, List.nil_append, Res.bind_ok, ← he]
    rw [htail]
  · rw [hE, List.cons_append, nameLoop_name p.name _ _ h.nameStart.1 hnp (by simp)]
    simp only [Res.bind_ok, hname]
    rw [emailLoop_cons]
    have hst : strip1 (LT :: e) = e := by simp [strip1]
    have ho := (open_iff p.email).1 h.emailOpen
    have hc := (close_iff p.email).1 h.emailClose
    rw [hsp] at ho hc
    simp only [List.tail_cons] at ho
    have hdl : (e :: (ms ++ [l])).dropLast = e :: ms := by
      rw [← List.cons_append]; exact List.dropLast_concat
    rw [hdl] at hc
    rw [hst, if_neg (hc e (by simp)), List.append_assoc, List.singleton_append,
      emailLoop_parts ms l _ _ (fun x hx => ho x (by simp [hx])) (fun x hx => hc x (by simp [hx]))
        (ho l (by simp))]
    simp only [List.nil_append, Res.bind_ok, ← he]
    rw [htail]

/-! ### what any parsed person satisfies -/

theorem splitSp_joinSp (ps : List Bytes) (hne : ps ≠ []) (h : ∀ q ∈ ps, SP ∉ q) :
    splitSp (joinSp ps) = ps := by
  induction ps with
  | nil => exact absurd rfl hne
  | cons p ps ih =>
    cases ps with
    | nil => simpa [joinSp] using splitSp_word p (h p (by simp))
    | cons q qs =>
      simp only [joinSp]
      rw [splitSp_append, splitSp_word p (h p (by simp)), ih (by simp) (fun x hx => h x (by simp [hx]))]
      rfl

theorem nameLoop_inv (ps : List Bytes) (acc n : Bytes) (r : List Bytes)
    (h : nameLoop ps acc = .ok (n, r)) :
    ∃ pre q rest, ps = pre ++ q :: rest ∧ r = q :: rest ∧ q.head? = some LT ∧
      (∀ x ∈ pre, x.head? ≠ some LT) ∧
      n = if acc = [] then spaced (pre.dropWhile List.isEmpty) else acc ++ spaced pre := by
  induction ps generalizing acc with
  | nil => simp [nameLoop] at h
  | cons p ps ih =>
    cases p with
    | nil =>
      simp only [nameLoop, List.length_nil, ne_eq, not_true_eq_false, if_false] at h
      split at h
      · rename_i hacc
        obtain ⟨pre, q, rest, hps, hr, hq, hpre, hn⟩ := ih _ h
        refine ⟨[] :: pre, q, rest, by simp [hps], hr, hq, ?_, ?_⟩
        · intro x hx
          rcases List.mem_cons.1 hx with rfl | hx
          · simp
          · exact hpre x hx
        · have : acc ≠ [] := by rintro rfl; simp at hacc
          simp [hn, this, spaced]
      · rename_i hacc
        have hacc : acc = [] := by
          cases acc with
          | nil => rfl
          | cons _ _ => simp at hacc
        obtain ⟨pre, q, rest, hps, hr, hq, hpre, hn⟩ := ih _ h
        refine ⟨[] :: pre, q, rest, by simp [hps], hr, hq, ?_, ?_⟩
        · intro x hx
          rcases List.mem_cons.1 hx with rfl | hx
          · simp
          · exact hpre x hx
        · simp [hn, hacc]
    | cons c cs =>
      simp only [nameLoop, List.length_cons, ne_eq, Nat.add_one_ne_zero, not_false_eq_true, if_true,
        first, Res.bind_ok] at h
      split at h
      · rename_i hc
        simp only [Res.ok.injEq, Prod.mk.injEq] at h
        obtain ⟨rfl, rfl⟩ := h
        refine ⟨[], c :: cs, ps, rfl, rfl, by simp [hc], by simp, ?_⟩
        simp [spaced]
      · rename_i hc
        obtain ⟨pre, q, rest, hps, hr, hq, hpre, hn⟩ := ih _ h
        refine ⟨(c :: cs) :: pre, q, rest, by simp [hps], hr, hq, ?_, ?_⟩
        · intro x hx
          rcases List.mem_cons.1 hx with rfl | hx
          · simpa using hc
          · exact hpre x hx
        · rw [if_neg (by simp)] at hn
          by_cases hacc : acc = []
          · simp [hn, hacc, spaced]
          · simp [hn, hacc, spaced]

theorem emailLoop_inv (ps : List Bytes) (acc em : Bytes) (r : List Bytes)
    (h : emailLoop ps acc = .ok (em, r)) (hsp : ∀ q ∈ ps, SP ∉ q) :
    ∃ pre qs l, ps = pre ++ r ∧ em = acc ++ spaced qs ++ l ∧ (∀ q ∈ qs, SP ∉ q) ∧ SP ∉ l ∧
      (∀ q ∈ qs, q.getLast? ≠ some GT) := by
  have hstrip : ∀ q : Bytes, SP ∉ q → SP ∉ strip1 q := by
    intro q hq
    unfold strip1
    split
    · exact fun hm => hq (List.mem_of_mem_tail hm)
    · exact hq
  induction ps generalizing acc with
  | nil => simp [emailLoop] at h
  | cons p ps ih =>
    rw [emailLoop_cons] at h
    have hp := hstrip p (hsp p (by simp))
    split at h
    · simp only [Res.ok.injEq, Prod.mk.injEq] at h
      obtain ⟨rfl, rfl⟩ := h
      exact ⟨[p], [], (strip1 p).dropLast, by simp, by simp [spaced], by simp,
        fun hm => hp ((List.dropLast_sublist _).subset hm), by simp⟩
    · rename_i hg
      obtain ⟨pre, qs, l, h1, h2, h3, h4, h5⟩ := ih _ h (fun x hx => hsp x (by simp [hx]))
      refine ⟨p :: pre, strip1 p :: qs, l, by simp [h1], by simp [h2, spaced], ?_, h4, ?_⟩
      · intro x hx
        rcases List.mem_cons.1 hx with rfl | hx
        · exact hp
        · exact h3 x hx
      · intro x hx
        rcases List.mem_cons.1 hx with rfl | hx
        · exact hg
        · exact h5 x hx

theorem spaced_append_last (qs : List Bytes) (l : Bytes) : spaced qs ++ l = joinSp (qs ++ [l]) := by
  have h := spaced_eq (qs ++ [l]) (by simp)
  have : spaced (qs ++ [l]) = spaced qs ++ l ++ [SP] := by simp [spaced]
  rw [this] at h
  exact List.append_cancel_right h

theorem parse_inv (line : Bytes) (p : PersonInfo) (h : parsePersonInfo line = .ok p) :
    ∃ n r r2, nameLoop ((splitSp line).drop 1) [] = .ok (n, r) ∧
      (if n.length ≠ 0 then chop n else .ok []) = .ok p.name ∧
      emailLoop r [] = .ok (p.email, r2) ∧ p = personRest p.name p.email r2 := by
  unfold parsePersonInfo at h
  simp only at h
  split at h
  · simp at h
  · obtain ⟨⟨n, r⟩, h1, h⟩ := Res.bind_eq_ok.1 h
    obtain ⟨name, h2, h⟩ := Res.bind_eq_ok.1 h
    obtain ⟨⟨em, r2⟩, h3, h⟩ := Res.bind_eq_ok.1 h
    simp only [Res.ok.injEq] at h
    have hn : p.name = name ∧ p.email = em := by
      rw [← h]; unfold personRest; split <;> simp
    refine ⟨n, r, r2, h1, ?_, ?_, ?_⟩
    · rw [hn.1]; exact h2
    · rw [hn.2]; exact h3
    · rw [hn.1, hn.2]; exact h.symm

/-- Every parsed person is well-formed except possibly for two things: the email
may contain " <", and there may be a timezone without date. -/
theorem parsed_person (line : Bytes) (p : PersonInfo) (h : parsePersonInfo line = .ok p) :
    (p.name.head? ≠ some SP ∧ p.name.head? ≠ some LT) ∧ ¬ [SP, LT] <:+: p.name ∧
    ¬ [GT, SP] <:+: p.email ∧ SP ∉ p.date ∧ SP ∉ p.timezone := by
  obtain ⟨n, r, r2, h1, h2, h3, h4⟩ := parse_inv line p h
  have hparts : ∀ q ∈ (splitSp line).drop 1, SP ∉ q :=
    fun q hq => splitSp_parts line q (List.mem_of_mem_drop hq)
  obtain ⟨pre, q, rest, hps, hr, hq, hpre, hn⟩ := nameLoop_inv _ _ _ _ h1
  rw [if_pos rfl] at hn
  -- the name
  have hname : (p.name.head? ≠ some SP ∧ p.name.head? ≠ some LT) ∧ ¬ [SP, LT] <:+: p.name := by
    cases hd : pre.dropWhile List.isEmpty with
    | nil =>
      rw [hd] at hn
      simp only [hn, spaced, List.flatMap_nil, List.length_nil, ne_eq, not_true_eq_false, if_false,
        Res.ok.injEq] at h2
      rw [← h2]
      simp
    | cons x xs =>
      rw [hd, spaced_eq _ (by simp)] at hn
      have hnl : n.length ≠ 0 := by rw [hn]; simp
      rw [if_pos hnl, hn] at h2
      simp only [chop, List.length_append, List.length_singleton, Nat.add_one_ne_zero, if_false,
        List.dropLast_concat, Res.ok.injEq] at h2
      have hsub : ∀ y ∈ x :: xs, y ∈ pre := by
        intro y hy; rw [← hd] at hy; exact List.dropWhile_sublist _ |>.subset hy
      have hx : x ≠ [] := by
        have := List.head?_dropWhile_not List.isEmpty pre
        rw [hd] at this
        simpa using this
      have hnosp : ∀ y ∈ x :: xs, SP ∉ y := by
        intro y hy
        apply hparts; rw [hps]; exact List.mem_append_left _ (hsub y hy)
      have hnolt : ∀ y ∈ x :: xs, y.head? ≠ some LT := fun y hy => hpre y (hsub y hy)
      have hsplit := splitSp_joinSp (x :: xs) (by simp) hnosp
      rw [h2] at hsplit
      refine ⟨⟨?_, ?_⟩, ?_⟩
      · intro hh
        cases hpn : p.name with
        | nil => rw [hpn] at hh; simp at hh
        | cons c cs =>
          rw [hpn] at hh hsplit
          simp only [List.head?_cons, Option.some.injEq] at hh
          simp only [splitSp, hh, if_true, List.cons.injEq] at hsplit
          exact hx hsplit.1.symm
      · rw [Ne, ← splitSp_head _ _ _ hsplit LT (by decide)]
        exact hnolt x (by simp)
      · rw [open_iff, hsplit]
        exact fun y hy => hnolt y (by simp at hy; simp [hy])
  -- the email
  have hrsp : ∀ x ∈ r, SP ∉ x := by
    intro x hx
    apply hparts; rw [hps, ← hr]; exact List.mem_append_right _ hx
  obtain ⟨pre2, qs, l, hr2, hem, hqs, hl, hgt⟩ := emailLoop_inv _ _ _ _ h3 hrsp
  have hemail : ¬ [GT, SP] <:+: p.email := by
    rw [close_iff]
    simp only [List.nil_append] at hem
    rw [spaced_append_last] at hem
    rw [hem, splitSp_joinSp _ (by simp) ?_]
    · simpa using hgt
    · intro x hx
      rcases List.mem_append.1 hx with hx | hx
      · exact hqs x hx
      · rw [List.mem_singleton.1 hx]; exact hl
  -- the rest
  have hr2sp : ∀ x ∈ r2, SP ∉ x := by
    intro x hx
    apply hrsp; rw [hr2]; exact List.mem_append_right _ hx
  have hrest : SP ∉ p.date ∧ SP ∉ p.timezone := by
    rw [h4]
    unfold personRest
    split
    · simp
    · exact ⟨hr2sp _ (by simp), by simp⟩
    · exact ⟨hr2sp _ (by simp), hr2sp _ (by simp)⟩
  exact ⟨hname.1, hname.2, hemail, hrest.1, hrest.2⟩

/-- Only persons that satisfy the spec survive formatting and parsing. -/
theorem personOk_of_parse (w : Bytes) (p : PersonInfo) (hw : SP ∉ w)
    (h : parsePersonInfo (w ++ SP :: gitString p) = .ok p) : PersonOk p := by
  obtain ⟨hns, hno, hec, hdw, htw⟩ := parsed_person _ _ h
  rw [parsePersonInfo_unfold w _ hw, splitSp_gitString] at h
  have hnp : ∀ q ∈ splitSp p.name, q.head? ≠ some LT := by
    have ho := (open_iff p.name).1 hno
    cases hs : splitSp p.name with
    | nil => exact absurd hs (splitSp_ne_nil _)
    | cons q qs =>
      rw [hs] at ho
      intro x hx
      rcases List.mem_cons.1 hx with rfl | hx
      · rw [Ne, splitSp_head _ _ _ hs LT (by decide)]; exact hns.2
      · exact ho x hx
  split at h
  · simp at h
  -- email
  have hmain : ¬ [SP, LT] <:+: p.email ∧ p = personRest p.name p.email (tailParts p) := by
    rcases splitSp_email p.email with ⟨e, hsp, he, hE⟩ | ⟨e, ms, l, hsp, he, hE⟩
    · rw [hE, List.singleton_append, nameLoop_name p.name _ _ hns.1 hnp (by simp)] at h
      simp only [Res.bind_ok] at h
      obtain ⟨nm, h2, h⟩ := Res.bind_eq_ok.1 h
      rw [emailLoop_cons] at h
      have hst : strip1 (LT :: (e ++ [GT])) = e ++ [GT] := by simp [strip1]
      rw [hst, if_pos (by simp)] at h
      simp only [List.dropLast_concat, List.nil_append, Res.bind_ok, Res.ok.injEq] at h
      refine ⟨by rw [open_iff, hsp]; simp, ?_⟩
      have : p.name = nm := by rw [← h]; unfold personRest; split <;> simp
      rw [this, he]; exact h.symm
    · rw [hE, List.cons_append, nameLoop_name p.name _ _ hns.1 hnp (by simp)] at h
      simp only [Res.bind_ok] at h
      obtain ⟨nm, h2, h⟩ := Res.bind_eq_ok.1 h
      have hc := (close_iff p.email).1 hec
      rw [hsp] at hc
      have hdl : (e :: (ms ++ [l])).dropLast = e :: ms := by
        rw [← List.cons_append]; exact List.dropLast_concat
      rw [hdl] at hc
      have hst : strip1 (LT :: e) = e := by simp [strip1]
      rw [emailLoop_cons, hst, if_neg (hc e (by simp)), List.append_assoc, List.singleton_append] at h
      obtain ⟨⟨em, r2⟩, h3, h⟩ := Res.bind_eq_ok.1 h
      simp only [Res.ok.injEq] at h
      have hb := emailLoop_bound _ _ _ _ _ _ h3
      have hpe : p.email = em := by rw [← h]; unfold personRest; split <;> simp
      have hpn : p.name = nm := by rw [← h]; unfold personRest; split <;> simp
      have hlen : em.length = ([] ++ (e ++ [SP]) : Bytes).length + (spaced ms).length + l.length := by
        rw [← hpe, he]; simp; omega
      obtain ⟨hb1, hb2, hb3⟩ := hb.2 hlen
      refine ⟨?_, ?_⟩
      · rw [open_iff, hsp]
        intro x hx
        simp only [List.tail_cons, List.mem_append, List.mem_singleton] at hx
        rcases hx with hx | rfl
        · exact hb1 x hx
        · exact hb3
      · rw [emailLoop_parts ms l _ _ hb1 hb2 hb3] at h3
        simp only [Res.ok.injEq, Prod.mk.injEq] at h3
        rw [hpn, hpe, h3.2]; exact h.symm
  refine ⟨hns, hno, hmain.1, hec, hdw, htw, ?_⟩
  intro ht hd
  have hm := hmain.2
  unfold tailParts at hm
  rw [if_neg (by simp [hd]), if_pos ht, List.nil_append, splitSp_word _ htw] at hm
  have := congrArg PersonInfo.timezone hm
  simp only [personRest] at this
  exact ht this

/-- Formatting and parsing is the identity exactly on well-formed persons. -/
theorem parse_gitString_iff (w : Bytes) (p : PersonInfo) (hw : SP ∉ w) :
    parsePersonInfo (w ++ SP :: gitString p) = .ok p ↔ PersonOk p :=
  ⟨personOk_of_parse w p hw, parse_gitString w p hw⟩

/-! ### no panics -/

theorem nameLoop_ne_panic (ps : List Bytes) (acc : Bytes) : nameLoop ps acc ≠ .panic := by
  induction ps generalizing acc with
  | nil => simp [nameLoop]
  | cons p ps ih =>
    cases p with
    | nil =>
      simp only [nameLoop, List.length_nil, ne_eq, not_true_eq_false, if_false]
      split <;> exact ih _
    | cons c cs =>
      simp only [nameLoop, List.length_cons, ne_eq, Nat.add_one_ne_zero, not_false_eq_true, if_true,
        first, Res.bind_ok]
      split
      · simp
      · exact ih _

theorem emailLoop_ne_panic (ps : List Bytes) (acc : Bytes) : emailLoop ps acc ≠ .panic := by
  induction ps generalizing acc with
  | nil => simp [emailLoop]
  | cons p ps ih =>
    rw [emailLoop_cons]
    split
    · simp
    · exact ih _

theorem parsePersonInfo_ne_panic (line : Bytes) : parsePersonInfo line ≠ .panic := by
  unfold parsePersonInfo
  simp only
  split
  · simp
  · intro h
    rcases Res.bind_eq_panic.1 h with h | ⟨⟨n, r⟩, h1, h⟩
    · exact nameLoop_ne_panic _ _ h
    rcases Res.bind_eq_panic.1 h with h | ⟨nm, h2, h⟩
    · simp only at h
      split at h
      · unfold chop at h; simp_all
      · simp at h
    rcases Res.bind_eq_panic.1 h with h | ⟨⟨em, r2⟩, h3, h⟩
    · exact emailLoop_ne_panic _ _ h
    · simp at h

end Verif
