import Verif.Model.Hex
import Verif.Model.Cid
import Verif.Spec.Hex

namespace Verif

open Spec

theorem hexDigit_table : ∀ c : Fin 256, ∀ v : Fin 16,
    hexVal (UInt8.ofNat c.val) = some v.val ↔
      (b!"0123456789abcdef"[v.val]? = some (UInt8.ofNat c.val) ∨
       b!"0123456789ABCDEF"[v.val]? = some (UInt8.ofNat c.val)) := by
  decide +kernel

theorem hexVal_lt : ∀ c : Fin 256, ∀ n, hexVal (UInt8.ofNat c.val) = some n → n < 16 := by
  decide +kernel

theorem hexVal_lt' (c : UInt8) (n : Nat) (h : hexVal c = some n) : n < 16 := by
  have hc := UInt8.toNat_lt c
  have := hexVal_lt ⟨c.toNat, by simpa using hc⟩ n
  simp only [UInt8.ofNat_toNat] at this
  exact this h

theorem hexVal_iff (c : UInt8) (v : Nat) : hexVal c = some v ↔ HexDigit c v := by
  have hc := UInt8.toNat_lt c
  by_cases hv : v < 16
  · have := hexDigit_table ⟨c.toNat, by simpa using hc⟩ ⟨v, hv⟩
    simp only [UInt8.ofNat_toNat] at this
    exact this
  · constructor
    · intro h; exact absurd (hexVal_lt' c v h) hv
    · intro h
      unfold HexDigit at h
      have h1 : b!"0123456789abcdef"[v]? = none := by
        rw [List.getElem?_eq_none_iff]; simp; omega
      have h2 : b!"0123456789ABCDEF"[v]? = none := by
        rw [List.getElem?_eq_none_iff]; simp; omega
      rw [h1, h2] at h
      simp at h

theorem hexDecode_iff (h b : Bytes) : hexDecode h = .ok b ↔ HexOf h b := by
  constructor
  · intro hh
    induction h using hexDecode.induct generalizing b with
    | case1 => simp only [hexDecode, Res.ok.injEq] at hh; subst hh; exact .nil
    | case2 => simp [hexDecode] at hh
    | case3 a c cs x y hy hx r hr ih =>
      simp only [hexDecode, hx, hy, hr, Res.ok.injEq] at hh
      rw [← hh, Nat.mul_comm]
      exact .cons ((hexVal_iff _ _).1 hx) ((hexVal_iff _ _).1 hy) (ih _ hr)
    | case4 a c cs x y hx hy e hr ih => simp [hexDecode, hx, hy, hr] at hh
    | case5 a c cs x y hx hy hr ih => simp [hexDecode, hx, hy, hr] at hh
    | case6 a c cs hno =>
      simp [hexDecode] at hh
  · intro hh
    induction hh with
    | nil => rfl
    | cons hx hy _ ih =>
      simp only [hexDecode, (hexVal_iff _ _).2 hx, (hexVal_iff _ _).2 hy, ih]
      rw [Nat.mul_comm]

theorem hexOf_length {h b : Bytes} (hh : HexOf h b) : h.length = 2 * b.length := by
  induction hh with
  | nil => rfl
  | cons _ _ _ ih => simp [ih]; omega

theorem hexDecode_ne_panic (h : Bytes) : hexDecode h ≠ .panic := by
  induction h using hexDecode.induct with
  | case1 => simp [hexDecode]
  | case2 => simp [hexDecode]
  | case3 a c cs x y hy hx r hr ih => simp [hexDecode, hx, hy, hr]
  | case4 a c cs x y hx hy e hr ih => simp [hexDecode, hx, hy, hr]
  | case5 a c cs x y hx hy hr ih => exact absurd hr ih
  | case6 a c cs hno =>
    simp [hexDecode]

theorem hexDigit_lower : ∀ v : Fin 16,
    b!"0123456789abcdef"[v.val]? = some (hexDigit v.val) := by decide

theorem lowerHexDigit_hexDigit (v : Nat) (h : v < 16) : LowerHexDigit (hexDigit v) v :=
  hexDigit_lower ⟨v, h⟩

theorem hexEncode_spec (b : Bytes) : LowerHexOf (hexEncode b) b := by
  induction b with
  | nil => exact .nil
  | cons c cs ih =>
    have hc : c.toNat < 256 := by simpa using UInt8.toNat_lt c
    have h := LowerHexOf.cons (lowerHexDigit_hexDigit (c.toNat / 16) (by omega))
      (lowerHexDigit_hexDigit (c.toNat % 16) (by omega)) ih
    rw [Nat.div_add_mod, UInt8.ofNat_toNat] at h
    simpa [hexEncode] using h

theorem Spec.LowerHexOf.toHexOf {h b : Bytes} (hh : LowerHexOf h b) : HexOf h b := by
  induction hh with
  | nil => exact .nil
  | cons a b _ ih => exact .cons (.inl a) (.inl b) ih

theorem hexDecode_hexEncode (b : Bytes) : hexDecode (hexEncode b) = .ok b :=
  (hexDecode_iff _ _).2 (hexEncode_spec b).toHexOf

theorem hexEncode_length (b : Bytes) : (hexEncode b).length = 2 * b.length :=
  hexOf_length (hexEncode_spec b).toHexOf

theorem lowerDigit_inj {c d : UInt8} {x : Nat} (h1 : LowerHexDigit c x) (h2 : LowerHexDigit d x) :
    c = d := by
  unfold LowerHexDigit at *; rw [h1] at h2; simpa using h2

theorem lowerDigit_lt {c : UInt8} {x : Nat} (h : LowerHexDigit c x) : x < 16 := by
  unfold LowerHexDigit at h
  have := List.getElem?_eq_some_iff.1 h
  obtain ⟨h, _⟩ := this
  simpa using h

/-- The lower-case hexadecimal notation is unique. -/
theorem lowerHexOf_unique {h h' b : Bytes} (h1 : LowerHexOf h b) (h2 : LowerHexOf h' b) : h = h' := by
  induction h1 generalizing h' with
  | nil => cases h2; rfl
  | @cons c d x y h b hc hd _ ih =>
    generalize hb : UInt8.ofNat (16 * x + y) :: b = b' at h2
    cases h2 with
    | nil => simp at hb
    | @cons c' d' x' y' h'' b'' hc' hd' hr =>
      simp only [List.cons.injEq] at hb
      have hx := lowerDigit_lt hc
      have hy := lowerDigit_lt hd
      have hx' := lowerDigit_lt hc'
      have hy' := lowerDigit_lt hd'
      have hn := congrArg UInt8.toNat hb.1
      simp only [UInt8.toNat_ofNat'] at hn
      have hxx : x = x' := by omega
      have hyy : y = y' := by omega
      subst hxx hyy
      rw [lowerDigit_inj hc hc', lowerDigit_inj hd hd', ih (hb.2 ▸ hr)]

theorem hexEncode_of_lower {h b : Bytes} (hh : LowerHexOf h b) : hexEncode b = h :=
  lowerHexOf_unique (hexEncode_spec b) hh

/-- No byte below '0' in hexadecimal output (in particular no LF, CR, space). -/
theorem hexEncode_ge (b : Bytes) : ∀ c ∈ hexEncode b, 48 ≤ c.toNat := by
  intro c hc
  unfold hexEncode at hc
  rw [List.mem_flatMap] at hc
  obtain ⟨x, _, hx⟩ := hc
  have h256 : x.toNat < 256 := by simpa using UInt8.toNat_lt x
  have key : ∀ n, n < 16 → 48 ≤ (hexDigit n).toNat := by decide
  simp only [List.mem_cons, List.not_mem_nil, or_false] at hx
  rcases hx with rfl | rfl
  · exact key _ (by omega)
  · exact key _ (by omega)

/-! ## Links -/

theorem shaToCid_ne_panic (b : Bytes) : shaToCid b ≠ .panic := by
  unfold shaToCid; split <;> simp

theorem cidToSha_shaToCid (b : Bytes) (c : Cid) (h : shaToCid b = .ok c) : cidToSha c = .ok b := by
  unfold shaToCid at h
  split at h
  · simp at h
  · rename_i hl
    simp only [Res.ok.injEq] at h
    subst h
    have hl : b.length = 20 := by simpa [gitShaLen] using hl
    simp [cidToSha, mhEncodeSha1, hl]

/-- The CID of a git hash. -/
def gitCid (sha : Bytes) : Cid := { version := 1, codec := 0x78, hash := 0x11 :: 0x14 :: sha }

theorem shaToCid_ok (b : Bytes) (h : b.length = 20) : shaToCid b = .ok (gitCid b) := by
  simp [shaToCid, gitShaLen, h, gitCid, mhEncodeSha1, gitRaw]

theorem shaToCid_eq_ok (b : Bytes) (c : Cid) : shaToCid b = .ok c ↔ b.length = 20 ∧ c = gitCid b := by
  by_cases h : b.length = 20
  · rw [shaToCid_ok b h]; simp [h, eq_comm]
  · simp [shaToCid, gitShaLen, h]

theorem cidToSha_gitCid (b : Bytes) (h : b.length = 20) : cidToSha (gitCid b) = .ok b :=
  cidToSha_shaToCid b _ (shaToCid_ok b h)

theorem linkSha_gitCid (b : Bytes) (h : b.length = 20) : linkSha (.cid (gitCid b)) = .ok b :=
  cidToSha_gitCid b h

end Verif
