import Verif.Model.Word
import Verif.Spec.Word
import Verif.Props.Blob
import Verif.Props.Links

/-!
# C107 What depends on the size of int
-/

namespace Verif.Props

open Verif Spec

theorem atoi_fails (d : Bytes) (e : Err) (h : atoi d = .err e) : e = .atoi := by
  unfold atoi at h
  split at h
  · simp_all
  · split at h
    · simp_all
    · split at h <;> split at h <;> simp_all

/-- The result of `Atoi` on a smaller platform. -/
def narrow (half : Nat) (r : Res Int) : Res Int :=
  r >>= fun z => if -(half : Int) ≤ z ∧ z < half then .ok z else .err .atoi

theorem atoiOn_narrow (half : Nat) (hh : 0 < half ∧ half ≤ 2 ^ 63) (d : Bytes) : atoiOn half d = narrow half (atoi d) := by
  unfold atoiOn atoi narrow
  by_cases h0 : (signBody d).2 = []
  · rw [if_pos h0, if_pos h0]; rfl
  rw [if_neg h0, if_neg h0]
  cases parseDigits 0 (signBody d).2 with
  | none => rfl
  | some n =>
    dsimp only
    by_cases hs : (signBody d).1 = true
    · rw [if_pos hs, if_pos hs]
      by_cases h : n ≤ half
      · rw [if_pos h, if_pos (by omega), Res.bind_ok, if_pos (by omega)]
      · rw [if_neg h]
        by_cases h' : n ≤ 2 ^ 63
        · rw [if_pos h', Res.bind_ok, if_neg (by omega)]
        · rw [if_neg h']; rfl
    · rw [if_neg hs, if_neg hs]
      by_cases h : n < half
      · rw [if_pos h, if_pos (by omega), Res.bind_ok, if_pos (by omega)]
      · rw [if_neg h]
        by_cases h' : n < 2 ^ 63
        · rw [if_pos h', Res.bind_ok, if_neg (by omega)]
        · rw [if_neg h']; rfl

theorem atoiOn_64 (d : Bytes) : atoiOn (2 ^ 63) d = atoi d := rfl

/-- The model of the other claims is the one for 64 bits. -/
theorem word_64 {σ : Type} [Reader σ] (s : σ) : parseObjectOn (2 ^ 63) s = parseObject s := rfl

theorem atoiOn_same {half : Nat} (hh : 0 < half ∧ half ≤ 2 ^ 63) {d : Bytes} (h : ∀ z, Signed d z → -(half : Int) ≤ z ∧ z < half) :
    atoiOn half d = atoi d := by
  rw [atoiOn_narrow half hh]
  cases ha : atoi d with
  | ok z =>
    have := h z ((atoi_iff d z).1 ha).1
    simp [narrow, this]
  | err e => rfl
  | panic => rfl

theorem signed_unique {d : Bytes} {y z : Int} (hy : Signed d y) (hz : Signed d z) : y = z := by
  obtain ⟨a, ha, had, h1⟩ := hy
  obtain ⟨b, hb, hbd, h2⟩ := hz
  have plus : ∀ {x : Bytes}, (∀ c ∈ x, Digit c) → ∀ {r : Bytes}, x ≠ 43 :: r := by
    rintro x hx r rfl
    exact absurd (hx 43 (by simp)).1 (by decide)
  have minus : ∀ {x : Bytes}, (∀ c ∈ x, Digit c) → ∀ {r : Bytes}, x ≠ 45 :: r := by
    rintro x hx r rfl
    exact absurd (hx 45 (by simp)).1 (by decide)
  rcases h1 with ⟨rfl, rfl⟩ | ⟨rfl, rfl⟩ | ⟨rfl, rfl⟩ <;> rcases h2 with ⟨e, rfl⟩ | ⟨e, rfl⟩ | ⟨e, rfl⟩
  · rw [e]
  · exact absurd e (plus had)
  · exact absurd e (minus had)
  · exact absurd e.symm (plus hbd)
  · simp only [List.cons.injEq, true_and] at e; rw [e]
  · simp at e
  · exact absurd e.symm (minus hbd)
  · simp at e
  · simp only [List.cons.injEq, true_and] at e; rw [e]

theorem atoiOn_wide {half : Nat} (hh : 0 < half ∧ half ≤ 2 ^ 63) {d : Bytes} {z : Int} (hz : Signed d z)
    (h : ¬ (-(half : Int) ≤ z ∧ z < half)) : atoiOn half d = .err .atoi := by
  rw [atoiOn_narrow half hh]
  cases ha : atoi d with
  | ok y =>
    have := signed_unique ((atoi_iff d y).1 ha).1 hz
    subst this
    simp only [narrow, Res.bind_ok, if_neg h]
  | err e =>
    have := atoi_fails d e ha
    subst this
    rfl
  | panic => exact absurd ha (clean_atoi d).1

theorem readNumOn_stream (half : Nat) (l r : Bytes) (e : Err) (N : Nat) (h : NUL ∉ l) :
    readNumOn (σ := Stream) half ⟨l ++ NUL :: r, e, N⟩ = (atoiOn half l >>= fun n => .ok (n, ⟨r, e, N⟩)) := by
  simp only [readNumOn, Reader.readString]
  rw [Stream.readString_delim _ _ _ _ _ h]
  simp

theorem readNumOn_same (half : Nat) (hh : 0 < half ∧ half ≤ 2 ^ 63) (s : Stream)
    (h : ∀ d r z, NUL ∉ d → Signed d z → s.rest = d ++ NUL :: r → -(half : Int) ≤ z ∧ z < half) :
    readNumOn half s = readNum s := by
  unfold readNumOn readNum
  cases hr : Reader.readString NUL s with
  | err e => rfl
  | panic => rfl
  | ok p =>
    obtain ⟨x, s'⟩ := p
    obtain ⟨d, rfl, hd, hrest, _, _⟩ := Stream.readString_ok _ _ _ _ hr
    simp only [Res.bind_ok, chop_concat]
    rw [atoiOn_same hh fun z hz => h d _ z hd hz hrest]

theorem split_word {c : UInt8} {a b x y : Bytes} (h : a ++ c :: x = b ++ c :: y) (ha : c ∉ a) (hb : c ∉ b) :
    a = b ∧ x = y := by
  induction a generalizing b with
  | nil =>
    cases b with
    | nil => simpa using h
    | cons d b =>
      simp only [List.nil_append, List.cons_append, List.cons.injEq] at h
      exact absurd (by rw [h.1]; simp) hb
  | cons d a ih =>
    cases b with
    | nil =>
      simp only [List.nil_append, List.cons_append, List.cons.injEq] at h
      exact absurd (by rw [h.1]; simp) ha
    | cons d' b =>
      simp only [List.cons_append, List.cons.injEq] at h
      obtain ⟨rfl, h⟩ := h
      obtain ⟨rfl, rfl⟩ := ih h (fun h => ha (by simp [h])) fun h => hb (by simp [h])
      exact ⟨rfl, rfl⟩

/-- Unless the announced size of a blob, tree or commit is a number that is no
`int`, the result is that of 64 bits. -/
theorem word_same (half : Nat) (hh : 0 < half ∧ half ≤ 2 ^ 63) (s : Stream) (h : ¬ WideSize half s.rest) :
    parseObjectOn half s = parseObject s := by
  unfold parseObjectOn parseObject
  cases hr : readType s with
  | err e => rfl
  | panic => rfl
  | ok p =>
    obtain ⟨w, s'⟩ := p
    have hrest : s.rest = w ++ SP :: s'.rest := (readType_ok _ _ _ hr).2.2
    have key : w ∈ [b!"blob", b!"tree", b!"commit"] → readNumOn half s' = readNum s' := by
      intro hw
      refine readNumOn_same half hh s' fun d r z hd hz hs => ?_
      apply Classical.byContradiction
      intro hn
      exact h ⟨w, d, r, z, hw, hd, hz, hn, by rw [hrest, hs]⟩
    simp only [Res.bind_ok]
    split
    · rename_i hw
      unfold decodeTreeOn decodeTree
      rw [key (by rw [hw]; decide)]
    · split
      · rename_i hw
        unfold decodeCommitOn decodeCommit
        rw [key (by rw [hw]; decide)]
      · split
        · rename_i hw
          unfold decodeBlobOn decodeBlob
          rw [key (by rw [hw]; decide)]
        · rfl

/-- Otherwise it is refused as a size, whatever follows. -/
theorem word_wide (half : Nat) (hh : 0 < half ∧ half ≤ 2 ^ 63) (s : Stream) (h : WideSize half s.rest) :
    parseObjectOn half s = .err .atoi := by
  obtain ⟨w, d, r, z, hw, hd, hz, hn, hs⟩ := h
  obtain ⟨b, e, N⟩ := s
  subst hs
  have hr : ∀ w : Bytes, SP ∉ w → readType (σ := Stream) ⟨w ++ SP :: (d ++ NUL :: r), e, N⟩ = .ok (w, ⟨d ++ NUL :: r, e, N⟩) := by
    intro w hw
    unfold readType
    rw [show Reader.readString SP (⟨w ++ SP :: (d ++ NUL :: r), e, N⟩ : Stream) = _ from
      Stream.readString_delim SP w (d ++ NUL :: r) e N hw]
    simp
  have hnum : readNumOn (σ := Stream) half ⟨d ++ NUL :: r, e, N⟩ = .err .atoi := by
    rw [readNumOn_stream half _ _ _ _ hd, atoiOn_wide hh hz hn]
    rfl
  unfold parseObjectOn
  simp only [List.mem_cons, List.not_mem_nil, or_false] at hw
  rcases hw with rfl | rfl | rfl <;> rw [hr _ (by decide)] <;>
    simp [decodeBlobOn, decodeTreeOn, decodeCommitOn, hnum]

/-- So an object that is read with 64 bits is read with 32 exactly if no size of a
blob, tree or commit is out of range, and then it is the same. -/
theorem word_32 (s : Stream) (o : Obj) (h : parseObject s = .ok o) :
    (parseObjectOn (2 ^ 31) s = .ok o ↔ ¬ WideSize (2 ^ 31) s.rest) ∧
    (parseObjectOn (2 ^ 31) s ≠ .ok o → parseObjectOn (2 ^ 31) s = .err .atoi) := by
  by_cases hw : WideSize (2 ^ 31) s.rest
  · have := word_wide (2 ^ 31) (by decide) s hw
    exact ⟨by simp [this, hw], fun _ => this⟩
  · have := word_same (2 ^ 31) (by decide) s hw
    rw [this, h]
    simp [hw]

/-- What is written for an object that was read is read in the same way on both, if
it is shorter than 2^31 bytes, which is as long as anything can be with 32 bits. -/
theorem word_written (s : Stream) (o : Obj) (h : parseObject s = .ok o) (out : Bytes) (ho : encObj o = .ok out)
    (hlen : out.length < 2 ^ 31) (e : Err) (N : Nat) :
    parseObjectOn (σ := Stream) (2 ^ 31) ⟨out, e, N⟩ = parseObject (σ := Stream) ⟨out, e, N⟩ := by
  apply word_same _ (by decide)
  rintro ⟨w, d, r, z, hw, hd, hz, hn, hout⟩
  change out = _ at hout
  have hform : ∃ w' d' body, SP ∉ w' ∧ Canonical d' body.length ∧ out = w' ++ SP :: (d' ++ NUL :: body) := by
    cases o with
    | blob b =>
      obtain ⟨_, content, _, _, _, ⟨d', hd', hb⟩, _⟩ := blob_canonical s b h
      have : b = out := by simpa [encObj] using ho
      subst this
      exact ⟨b!"blob", d', content, by decide, hd', hb⟩
    | tree t => obtain ⟨d', body, h1, h2⟩ := encode_size _ out (by simp) ho; exact ⟨_, d', body, by simp only [typeWord]; decide, h1, h2⟩
    | commit c => obtain ⟨d', body, h1, h2⟩ := encode_size _ out (by simp) ho; exact ⟨_, d', body, by simp only [typeWord]; decide, h1, h2⟩
    | tag t => obtain ⟨d', body, h1, h2⟩ := encode_size _ out (by simp) ho; exact ⟨_, d', body, by simp only [typeWord]; decide, h1, h2⟩
  obtain ⟨w', d', body, hw', hd', hout'⟩ := hform
  have hsp : SP ∉ w := by
    simp only [List.mem_cons, List.not_mem_nil, or_false] at hw
    rcases hw with rfl | rfl | rfl <;> decide
  have h1 : w = w' ∧ d ++ NUL :: r = d' ++ NUL :: body := split_word (hout.symm.trans hout') hsp hw'
  have h2 : d = d' ∧ r = body := split_word h1.2 hd (signed_nul (canonical_signed hd'))
  obtain ⟨rfl, rfl⟩ := h2
  have := signed_unique hz (canonical_signed hd')
  subst this
  apply hn
  have : r.length < 2 ^ 31 := by
    rw [hout] at hlen
    simp at hlen
    omega
  omega

/-! A tree with no entries whose size is announced as 2^31: read with 64 bits,
refused with 32. -/

example : WideSize (2 ^ 31) b!"tree 2147483648\x00" ∧
    parseObject (σ := Stream) ⟨b!"tree 2147483648\x00", .eof, 4096⟩ = .ok (.tree ⟨[], []⟩) := by
  refine ⟨⟨b!"tree", b!"2147483648", [], 2147483648, by decide, by decide, ⟨b!"2147483648", by decide, ?_, .inl ⟨rfl, by decide +kernel⟩⟩,
    by decide, by decide⟩, by decide +kernel⟩
  simp only [Digit]
  decide

/-- A tag does not care. -/
example : ¬ WideSize (2 ^ 31) b!"tag 2147483648\x00" := by
  rintro ⟨w, d, r, z, hw, _, _, _, h⟩
  simp only [List.mem_cons, List.not_mem_nil, or_false] at hw
  rcases hw with rfl | rfl | rfl <;> simp at h

end Verif.Props
