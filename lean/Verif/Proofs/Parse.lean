import Verif.Proofs.RoundTrip

/-!
# `ParseObject` on framed objects, and inversion
-/

namespace Verif

open Spec

theorem parse_tree (r : Bytes) (e : Err) (N : Nat) :
    parseObject (σ := Stream) ⟨b!"tree" ++ SP :: r, e, N⟩ =
      decodeTree (σ := Stream) ⟨r, e, N⟩ >>= fun t => .ok (.tree t) := by
  unfold parseObject
  rw [readType_word _ _ _ _ (by decide)]
  simp

theorem parse_commit (r : Bytes) (e : Err) (N : Nat) :
    parseObject (σ := Stream) ⟨b!"commit" ++ SP :: r, e, N⟩ =
      decodeCommit (σ := Stream) ⟨r, e, N⟩ >>= fun c => .ok (.commit c) := by
  unfold parseObject
  rw [readType_word _ _ _ _ (by decide)]
  simp

theorem parse_blob (r : Bytes) (e : Err) (N : Nat) :
    parseObject (σ := Stream) ⟨b!"blob" ++ SP :: r, e, N⟩ =
      decodeBlob (σ := Stream) ⟨r, e, N⟩ >>= fun b => .ok (.blob b) := by
  unfold parseObject
  rw [readType_word _ _ _ _ (by decide)]
  simp

theorem parse_tag (r : Bytes) (e : Err) (N : Nat) :
    parseObject (σ := Stream) ⟨b!"tag" ++ SP :: r, e, N⟩ =
      decodeTag (σ := Stream) ⟨r, e, N⟩ >>= fun t => .ok (.tag t) := by
  unfold parseObject
  rw [readType_word _ _ _ _ (by decide)]
  simp

/-- What a successful parse did. -/
theorem parse_inv_ok (s : Stream) (o : Obj) (h : parseObject s = .ok o) :
    (∃ (t : _) (s' : Stream), s.rest = b!"tree" ++ SP :: s'.rest ∧ s'.fin = s.fin ∧ s'.bufsz = s.bufsz ∧
      decodeTree s' = .ok t ∧ o = .tree t) ∨
    (∃ (c : _) (s' : Stream), s.rest = b!"commit" ++ SP :: s'.rest ∧ s'.fin = s.fin ∧ s'.bufsz = s.bufsz ∧
      decodeCommit s' = .ok c ∧ o = .commit c) ∨
    (∃ (b : _) (s' : Stream), s.rest = b!"blob" ++ SP :: s'.rest ∧ s'.fin = s.fin ∧ s'.bufsz = s.bufsz ∧
      decodeBlob s' = .ok b ∧ o = .blob b) ∨
    (∃ (t : _) (s' : Stream), s.rest = b!"tag" ++ SP :: s'.rest ∧ s'.fin = s.fin ∧ s'.bufsz = s.bufsz ∧
      decodeTag s' = .ok t ∧ o = .tag t) := by
  unfold parseObject at h
  obtain ⟨⟨w, s'⟩, h1, h⟩ := Res.bind_eq_ok.1 h
  obtain ⟨hlt, hsp, hrest⟩ := readType_ok _ _ _ h1
  simp only at h
  split at h
  · rename_i hw; subst hw
    obtain ⟨t, ht, h⟩ := Res.bind_eq_ok.1 h
    simp only [Res.ok.injEq] at h
    exact Or.inl ⟨t, s', hrest, hlt.fin, hlt.bufsz, ht, h.symm⟩
  split at h
  · rename_i _ hw; subst hw
    obtain ⟨t, ht, h⟩ := Res.bind_eq_ok.1 h
    simp only [Res.ok.injEq] at h
    exact Or.inr (Or.inl ⟨t, s', hrest, hlt.fin, hlt.bufsz, ht, h.symm⟩)
  split at h
  · rename_i _ _ hw; subst hw
    obtain ⟨t, ht, h⟩ := Res.bind_eq_ok.1 h
    simp only [Res.ok.injEq] at h
    exact Or.inr (Or.inr (Or.inl ⟨t, s', hrest, hlt.fin, hlt.bufsz, ht, h.symm⟩))
  split at h
  · rename_i _ _ _ hw; subst hw
    obtain ⟨t, ht, h⟩ := Res.bind_eq_ok.1 h
    simp only [Res.ok.injEq] at h
    exact Or.inr (Or.inr (Or.inr ⟨t, s', hrest, hlt.fin, hlt.bufsz, ht, h.symm⟩))
  · simp at h

theorem readNum_ok (s s' : Stream) (z : Int) (h : readNum s = .ok (z, s')) :
    ∃ d, s.rest = d ++ NUL :: s'.rest ∧ NUL ∉ d ∧ atoi d = .ok z ∧ s'.fin = s.fin ∧
      s'.bufsz = s.bufsz := by
  unfold readNum at h
  obtain ⟨⟨x, s1⟩, h1, h⟩ := Res.bind_eq_ok.1 h
  obtain ⟨a, rfl, ha, hrest, hf, hb⟩ := Stream.readString_ok _ _ _ _ h1
  simp only [chop_concat, Res.bind_ok] at h
  obtain ⟨n, h2, h⟩ := Res.bind_eq_ok.1 h
  simp only [Res.ok.injEq, Prod.mk.injEq] at h
  obtain ⟨rfl, rfl⟩ := h
  exact ⟨a, hrest, ha, h2, hf, hb⟩

theorem digit_ne_nul {d : Bytes} (h : ∀ c ∈ d, Digit c) : NUL ∉ d := by
  intro hm
  have := h _ hm
  simp [Digit] at this

theorem signed_nul {d : Bytes} {z : Int} (h : Signed d z) : NUL ∉ d := by
  obtain ⟨ds, _, hd, h⟩ := h
  have := digit_ne_nul hd
  rcases h with ⟨rfl, _⟩ | ⟨rfl, _⟩ | ⟨rfl, _⟩
  · exact this
  · simp [this]; decide
  · simp [this]; decide

theorem canonical_signed {d : Bytes} {n : Nat} (h : Canonical d n) : Signed d n :=
  ⟨d, h.1, h.2.1, Or.inl ⟨rfl, by rw [h.2.2.2]⟩⟩

/-- Reading a size header that is a 64-bit number. -/
theorem readNum_signed (d r : Bytes) (e : Err) (N : Nat) (z : Int) (hd : Signed d z)
    (h1 : -(2 ^ 63 : Int) ≤ z) (h2 : z < 2 ^ 63) :
    readNum (σ := Stream) ⟨d ++ NUL :: r, e, N⟩ = .ok (z, ⟨r, e, N⟩) := by
  rw [readNum_stream _ _ _ _ (signed_nul hd), (atoi_iff d z).2 ⟨hd, h1, h2⟩]
  rfl

end Verif
