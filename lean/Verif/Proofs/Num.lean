import Verif.Model.Num
import Verif.Spec.Num

namespace Verif

open Spec

theorem isDigit_iff (c : UInt8) : isDigit c = true ↔ Digit c := by
  simp [isDigit, Digit, UInt8.le_iff_toNat_le]

theorem parseDigits_eq (acc : Nat) (s : Bytes) (h : ∀ c ∈ s, Digit c) :
    parseDigits acc s = some (acc * 10 ^ s.length + value s) := by
  induction s generalizing acc with
  | nil => simp [parseDigits, value]
  | cons c cs ih =>
    have hc := (isDigit_iff c).2 (h c (by simp))
    simp only [parseDigits, hc, if_true]
    rw [ih _ (fun x hx => h x (by simp [hx]))]
    simp only [value, List.length_cons, Nat.pow_succ, Option.some.injEq]
    rw [Nat.add_mul, Nat.mul_assoc, Nat.mul_comm 10, Nat.add_assoc]

theorem parseDigits_isSome (acc : Nat) (s : Bytes) (n : Nat) (h : parseDigits acc s = some n) :
    ∀ c ∈ s, Digit c := by
  induction s generalizing acc with
  | nil => simp
  | cons c cs ih =>
    simp only [parseDigits] at h
    split at h
    · rename_i hc
      intro x hx
      rcases List.mem_cons.1 hx with rfl | hx
      · exact (isDigit_iff _).1 hc
      · exact ih _ h x hx
    · simp at h

theorem value_append (a b : Bytes) : value (a ++ b) = value a * 10 ^ b.length + value b := by
  induction a with
  | nil => simp [value]
  | cons c cs ih =>
    simp only [List.cons_append, value, ih, List.length_append, Nat.pow_add, Nat.add_mul]
    rw [Nat.mul_assoc, Nat.add_assoc]

theorem digit_ofNat (k : Nat) (h : k < 10) : (UInt8.ofNat (48 + k)).toNat = 48 + k := by
  simp; omega

theorem digitsAux_spec (fuel n : Nat) (acc : Bytes) (hf : n < fuel) :
    ∃ ds, digitsAux fuel n acc = ds ++ acc ∧ Canonical ds n := by
  induction fuel generalizing n acc with
  | zero => omega
  | succ fuel ih =>
    have hm : n % 10 < 10 := Nat.mod_lt _ (by omega)
    have hv := digit_ofNat _ hm
    have hd : Digit (UInt8.ofNat (48 + n % 10)) := by
      unfold Digit; rw [hv]; omega
    simp only [digitsAux]
    split
    · rename_i h0
      refine ⟨[UInt8.ofNat (48 + n % 10)], by simp, by simp, ?_, by simp, ?_⟩
      · intro c hc; rw [List.mem_singleton.1 hc]; exact hd
      · simp only [value, hv, List.length_nil, Nat.pow_zero]; omega
    · rename_i h0
      obtain ⟨ds, he, hne, hall, hlead, hval⟩ :=
        ih (n / 10) (UInt8.ofNat (48 + n % 10) :: acc) (by omega)
      refine ⟨ds ++ [UInt8.ofNat (48 + n % 10)], by rw [he]; simp only [List.append_assoc, List.cons_append, List.nil_append], by simp, ?_, ?_, ?_⟩
      · intro c hc
        rcases List.mem_append.1 hc with hc | hc
        · exact hall c hc
        · rw [List.mem_singleton.1 hc]; exact hd
      · intro hh
        exfalso
        cases ds with
        | nil => exact hne rfl
        | cons d ds' =>
          simp only [List.cons_append, List.head?_cons] at hh hlead
          have := hlead hh
          have hds : ds' = [] := by simpa using this
          subst hds
          have hd48 : d = 48 := by simpa using hh
          subst hd48
          simp [value] at hval
          omega
      · rw [value_append, hval]
        simp only [value, hv, List.length_singleton, List.length_nil, Nat.pow_zero]
        omega

theorem decimal_canonical (n : Nat) : Canonical (decimal n) n := by
  obtain ⟨ds, he, hc⟩ := digitsAux_spec (n + 1) n [] (by omega)
  simp only [List.append_nil] at he
  unfold decimal
  rw [he]; exact hc

theorem value_lt (s : Bytes) (h : ∀ c ∈ s, Digit c) : value s < 10 ^ s.length := by
  induction s with
  | nil => simp [value]
  | cons c cs ih =>
    have hc := h c (by simp)
    have := ih (fun x hx => h x (by simp [hx]))
    simp only [value, List.length_cons, Nat.pow_succ]
    unfold Digit at hc
    have h9 : c.toNat - 48 ≤ 9 := by omega
    calc (c.toNat - 48) * 10 ^ cs.length + value cs
        < (c.toNat - 48) * 10 ^ cs.length + 10 ^ cs.length := by omega
      _ = (c.toNat - 48 + 1) * 10 ^ cs.length := by rw [Nat.add_mul]; simp
      _ ≤ 10 * 10 ^ cs.length := Nat.mul_le_mul_right _ (by omega)
      _ = 10 ^ cs.length * 10 := Nat.mul_comm _ _

theorem value_ge_of_lead (c : UInt8) (cs : Bytes) (hc : Digit c) (h : c ≠ 48) :
    10 ^ cs.length ≤ value (c :: cs) := by
  simp only [value]
  have : 1 ≤ c.toNat - 48 := by
    have : c.toNat ≠ 48 := fun hh => h (UInt8.toNat_inj.1 (by simpa using hh))
    unfold Digit at hc; omega
  calc 10 ^ cs.length = 1 * 10 ^ cs.length := by simp
    _ ≤ (c.toNat - 48) * 10 ^ cs.length := Nat.mul_le_mul_right _ this
    _ ≤ _ := Nat.le_add_right _ _

theorem value_inj_len (a b : Bytes) (ha : ∀ c ∈ a, Digit c) (hb : ∀ c ∈ b, Digit c)
    (hl : a.length = b.length) (hv : value a = value b) : a = b := by
  induction a generalizing b with
  | nil => cases b with
    | nil => rfl
    | cons _ _ => simp at hl
  | cons c cs ih =>
    cases b with
    | nil => simp at hl
    | cons d ds =>
      have hl' : cs.length = ds.length := by simpa using hl
      have hcs := value_lt cs (fun x hx => ha x (by simp [hx]))
      have hds := value_lt ds (fun x hx => hb x (by simp [hx]))
      simp only [value, hl'] at hv
      rw [hl'] at hcs
      have hq : c.toNat - 48 = d.toNat - 48 := by
        have h1 : ((c.toNat - 48) * 10 ^ ds.length + value cs) / 10 ^ ds.length = c.toNat - 48 := by
          rw [Nat.mul_comm, Nat.mul_add_div (Nat.pow_pos (by omega)), Nat.div_eq_of_lt hcs]; simp
        have h2 : ((d.toNat - 48) * 10 ^ ds.length + value ds) / 10 ^ ds.length = d.toNat - 48 := by
          rw [Nat.mul_comm, Nat.mul_add_div (Nat.pow_pos (by omega)), Nat.div_eq_of_lt hds]; simp
        rw [← h1, ← h2, hv]
      rw [hq] at hv
      have hvv : value cs = value ds := by omega
      have hcd := ha c (by simp)
      have hdd := hb d (by simp)
      unfold Digit at hcd hdd
      have : c = d := UInt8.toNat_inj.1 (by omega)
      rw [this, ih ds (fun x hx => ha x (by simp [hx])) (fun x hx => hb x (by simp [hx])) hl' hvv]

/-- Canonical notation is unique. -/
theorem canonical_unique (a b : Bytes) (n : Nat) (ha : Canonical a n) (hb : Canonical b n) :
    a = b := by
  obtain ⟨hane, had, hal, hav⟩ := ha
  obtain ⟨hbne, hbd, hbl, hbv⟩ := hb
  apply value_inj_len a b had hbd _ (hav.trans hbv.symm)
  -- lengths agree: compare magnitudes
  have key : ∀ x y : Bytes, x ≠ [] → (∀ c ∈ x, Digit c) → (x.head? = some 48 → x.length = 1) →
      y ≠ [] → (∀ c ∈ y, Digit c) → value x = value y → x.length ≤ y.length := by
    intro x y hx hxd hxl hy hyd hv
    cases x with
    | nil => exact absurd rfl hx
    | cons c cs =>
      by_cases hc : c = 48
      · subst hc
        have := hxl (by simp)
        have : 0 < y.length := List.length_pos_iff.2 hy
        omega
      · have h1 := value_ge_of_lead c cs (hxd c (by simp)) hc
        have h2 := value_lt y hyd
        rw [hv] at h1
        have h3 : 10 ^ cs.length < 10 ^ y.length := Nat.lt_of_le_of_lt h1 h2
        have := (Nat.pow_lt_pow_iff_right (by omega : 1 < 10)).1 h3
        simp; omega
  exact Nat.le_antisymm (key a b hane had hal hbne hbd (hav.trans hbv.symm))
    (key b a hbne hbd hbl hane had (hbv.trans hav.symm))

theorem decimal_ne_nil (n : Nat) : decimal n ≠ [] := (decimal_canonical n).1

theorem decimal_digits (n : Nat) : ∀ c ∈ decimal n, Digit c := (decimal_canonical n).2.1

theorem nul_notin_decimal (n : Nat) : NUL ∉ decimal n := by
  intro h
  have := decimal_digits n _ h
  simp [Digit] at this

theorem atoi_digits (ds : Bytes) (hne : ds ≠ []) (hd : ∀ c ∈ ds, Digit c) :
    atoi ds = if value ds < 2 ^ 63 then .ok (value ds : Int) else .err .atoi := by
  cases ds with
  | nil => exact absurd rfl hne
  | cons c cs =>
    have hc := hd c (by simp)
    have h43 : c ≠ 43 := by rintro rfl; simp [Digit] at hc
    have h45 : c ≠ 45 := by rintro rfl; simp [Digit] at hc
    have hp := parseDigits_eq 0 (c :: cs) hd
    simp only [Nat.zero_mul, Nat.zero_add] at hp
    have hb : signBody (c :: cs) = (false, c :: cs) := by simp [signBody, h43, h45]
    simp only [atoi, hb, hp]
    simp

theorem atoi_decimal (n : Nat) (h : n < 2 ^ 63) : atoi (decimal n) = .ok (n : Int) := by
  have hc := decimal_canonical n
  rw [atoi_digits _ hc.1 hc.2.1, hc.2.2.2, if_pos h]

/-- `Atoi` accepts exactly the signed decimal notations of 64-bit integers. -/
theorem atoi_iff (s : Bytes) (z : Int) :
    atoi s = .ok z ↔ Signed s z ∧ -(2 ^ 63 : Int) ≤ z ∧ z < 2 ^ 63 := by
  constructor
  · intro h
    unfold atoi at h
    split at h
    · simp at h
    · rename_i hne
      split at h
      · simp at h
      · rename_i n hp
        have hd := parseDigits_isSome _ _ _ hp
        have hv := parseDigits_eq 0 _ hd
        rw [hp] at hv
        simp only [Nat.zero_mul, Nat.zero_add, Option.some.injEq] at hv
        have hsb : (signBody s = (false, s)) ∨ (∃ ds, s = 43 :: ds ∧ signBody s = (false, ds)) ∨
            (∃ ds, s = 45 :: ds ∧ signBody s = (true, ds)) := by
          cases s with
          | nil => left; rfl
          | cons c cs =>
            simp only [signBody]
            by_cases h1 : c = 43
            · right; left; exact ⟨cs, by simp [h1], by simp [h1]⟩
            · by_cases h2 : c = 45
              · right; right; exact ⟨cs, by simp [h2], by simp [h2]⟩
              · left; simp [h1, h2]
        rcases hsb with hsb | ⟨ds, hs, hsb⟩ | ⟨ds, hs, hsb⟩
        · rw [hsb] at h hne hd hv
          simp only [Bool.false_eq_true, if_false] at h
          split at h
          · rename_i hlt
            simp only [Res.ok.injEq] at h
            refine ⟨⟨s, hne, hd, Or.inl ⟨rfl, ?_⟩⟩, ?_, ?_⟩
            · rw [← h, hv]
            · omega
            · omega
          · simp at h
        · rw [hsb] at h hne hd hv
          simp only [Bool.false_eq_true, if_false] at h
          split at h
          · rename_i hlt
            simp only [Res.ok.injEq] at h
            refine ⟨⟨ds, hne, hd, Or.inr (Or.inl ⟨hs, ?_⟩)⟩, ?_, ?_⟩
            · rw [← h, hv]
            · omega
            · omega
          · simp at h
        · rw [hsb] at h hne hd hv
          simp only [if_true] at h
          split at h
          · rename_i hlt
            simp only [Res.ok.injEq] at h
            refine ⟨⟨ds, hne, hd, Or.inr (Or.inr ⟨hs, ?_⟩)⟩, ?_, ?_⟩
            · rw [← h, hv]
            · omega
            · omega
          · simp at h
  · rintro ⟨⟨ds, hne, hd, h⟩, hlo, hhi⟩
    have hp := parseDigits_eq 0 ds hd
    simp only [Nat.zero_mul, Nat.zero_add] at hp
    rcases h with ⟨rfl, rfl⟩ | ⟨rfl, rfl⟩ | ⟨rfl, rfl⟩
    · rw [atoi_digits _ hne hd, if_pos (by omega)]
    · simp only [atoi, signBody, if_true, hne, if_false, hp, Bool.false_eq_true]
      rw [if_pos (by omega)]
    · have hsb : signBody (45 :: ds) = (true, ds) := by simp [signBody]
      simp only [atoi, hsb, hne, if_false, hp, if_true]
      rw [if_pos (by omega)]

end Verif
