import Verif.Spec.Taking
import Verif.Props.Rest

/-!
# C117 What Decode takes from a reader that is not buffered
-/

namespace Verif.Props

open Verif Spec

section
variable {ρ : Type} [Source ρ] {inv : ρ → Prop} {pending : ρ → Bytes} {fin : Err} {eager : Prop}

/-- However the reader delivers the bytes, when a blob has been read at most a buffer
full of what follows it is taken as well. -/
theorem blob_overread (D : Delivers ρ inv pending fin eager) (r : ρ) (hr : inv r) (size : Nat) (hs : 0 < size) (room : Nat → Nat)
    (he : eager → fin = .eof ∧ (pending r).getLast? ≠ some CR) {content text tail : Bytes} (hl : content.length < 2 ^ 63)
    (ht : Framed b!"blob" content text) (hp : pending r = text ++ tail) :
    ∃ b lost, parseRest (newReader r size room) = .ok (.blob text, some b) ∧ inv b.src ∧ tail = lost ++ pending b.src ∧
      lost.length ≤ size := by
  have h1 := rest_text content tail text fin size hl ht
  rw [← hp] at h1
  obtain ⟨b, h2, h3⟩ := sim_parseRest (bufio_sim D) _ _ (newReader_match r hr size hs room he) h1
  refine ⟨b, b.buf, h2, h3.any.ok, h3.any.rest, ?_⟩
  have h4 : size = b.size := h3.any.size
  rw [h4]
  exact h3.any.fits

theorem fill_greedy (D : Delivers ρ inv pending fin eager) (G : Greedy ρ inv pending) (r : ρ) (hr : inv r) (size : Nat) (hs : 0 < size)
    (room : Nat → Nat) (hp : pending r ≠ []) (n : Nat) :
    ∃ b, Bufio.fill (n + 1) (newReader r size room) = b ∧ b.buf = (pending r).take size ∧ inv b.src ∧
      pending b.src = (pending r).drop size ∧ b.size = size := by
  have g := G size r hs hr
  have d := D.data size r hs hr
  have i := D.stays size r hs hr
  have hd : pending (Source.read size r).2 = (pending r).drop size := by
    rw [g] at d
    have : (pending r).take size ++ (pending r).drop size = (pending r).take size ++ pending (Source.read size r).2 := by
      rw [List.take_append_drop]; exact d
    exact (List.append_cancel_left this).symm
  have hlen : 0 < (Source.read size r).1.1.length := by
    rw [g, List.length_take]
    have := List.length_pos_iff.2 hp
    omega
  simp only [Bufio.fill, newReader, List.length_nil, Nat.sub_zero, List.nil_append]
  cases hx : (Source.read size r).1.2 with
  | some x => exact ⟨_, rfl, g, i, hd, rfl⟩
  | none =>
    simp only [hlen, if_true]
    exact ⟨_, rfl, g, i, hd, rfl⟩

theorem readString_in {d : UInt8} {b : Bufio ρ} {x y : Bytes} (h : splitAt d b.buf = some (x, y)) :
    Reader.readString d b = .ok (x ++ [d], { b with buf := y }) := by
  show Bufio.readString d (b.left + 2) [] b = _
  simp only [Bufio.readString, Bufio.readSlice, h, Res.bind_ok, List.nil_append]

theorem readLimited_in : ∀ (f : Nat) (x acc y : Bytes) (b : Bufio ρ), b.buf = x ++ y → x.length < f →
    Bufio.readLimited (acc.length + x.length) f acc b = .ok (acc ++ x, { b with buf := y }) := by
  intro f
  induction f with
  | zero => intro x acc y b _ hf; omega
  | succ f ih =>
    intro x acc y b hb hf
    cases x with
    | nil =>
      simp only [Bufio.readLimited, List.length_nil, Nat.add_zero, Nat.le_refl, if_true, List.append_nil]
      simp only [List.nil_append] at hb
      rw [← hb]
    | cons c x =>
      have hne : b.buf ≠ [] := by rw [hb]; simp
      simp only [Bufio.readLimited]
      rw [if_neg (by simp)]
      generalize hk : min (b.room acc.length + 1) (acc.length + (c :: x).length - acc.length) = k
      have hk1 : 1 ≤ k := by simp at hk; omega
      have hk2 : k ≤ (c :: x).length := by simp at hk ⊢; omega
      simp only [Bufio.read, if_neg hne]
      have e1 : b.buf.take k = (c :: x).take k := by rw [hb, List.take_append_of_le_length hk2]
      have e2 : b.buf.drop k = (c :: x).drop k ++ y := by rw [hb, List.drop_append_of_le_length hk2]
      rw [e1, e2]
      have := ih ((c :: x).drop k) (acc ++ (c :: x).take k) y { b with buf := (c :: x).drop k ++ y } rfl (by
        simp only [List.length_drop]; omega)
      have hn : (acc ++ (c :: x).take k).length + ((c :: x).drop k).length = acc.length + (c :: x).length := by
        simp only [List.length_append, List.length_take, List.length_drop]; omega
      rw [hn] at this
      rw [this, List.append_assoc, List.take_append_drop]

/-- If the reader gives what is asked for and the blob fits into the buffer, what is
taken is a buffer full, whatever stands there. -/
theorem blob_takes_buffer (D : Delivers ρ inv pending fin eager) (G : Greedy ρ inv pending) (r : ρ) (hr : inv r) (size : Nat)
    (room : Nat → Nat) {content text tail : Bytes} (hl : content.length < 2 ^ 63) (ht : Framed b!"blob" content text)
    (hp : pending r = text ++ tail) (hs : text.length ≤ size) :
    ∃ b, parseRest (newReader r size room) = .ok (.blob text, some b) ∧ inv b.src ∧
      pending b.src = tail.drop (size - text.length) := by
  have ht' := framed_decimal ht
  have hpos : 0 < size := by
    rw [ht'] at hs
    simp at hs
    omega
  have hne : pending r ≠ [] := by
    rw [hp, ht']
    simp
  obtain ⟨b, hb, hbuf, hinv, hpend, hsize⟩ := fill_greedy D G r hr size hpos room hne 99
  have hbuf' : b.buf = b!"blob" ++ SP :: (decimal content.length ++ NUL :: (content ++ tail.take (size - text.length))) := by
    rw [hbuf, hp, List.take_append, List.take_of_length_le hs]
    rw [ht']
    simp
  have h1 : Reader.readString SP (newReader r size room) =
      .ok (b!"blob" ++ [SP], { b with buf := decimal content.length ++ NUL :: (content ++ tail.take (size - text.length)) }) := by
    show Bufio.readString SP ((newReader r size room).left + 2) [] _ = _
    have h2 : Bufio.readSlice SP ((newReader r size room).size + 2) (newReader r size room) = Bufio.readSlice SP (size + 1) b := by
      show Bufio.readSlice SP (size + 1 + 1) (newReader r size room) = _
      rw [Bufio.readSlice]
      rw [show splitAt SP (newReader r size room).buf = none from rfl]
      rw [show (newReader r size room).err = none from rfl]
      dsimp only
      rw [if_neg (by show ¬ size ≤ 0; omega), hb]
    have h3 : splitAt SP b.buf = some (b!"blob", decimal content.length ++ NUL :: (content ++ tail.take (size - text.length))) := by
      rw [hbuf']
      exact splitAt_notin _ _ _ (by decide)
    rw [Bufio.readString, h2]
    simp only [Bufio.readSlice, h3, Res.bind_ok, List.nil_append]
  have h4 : readType (newReader r size room) =
      .ok (b!"blob", { b with buf := decimal content.length ++ NUL :: (content ++ tail.take (size - text.length)) }) := by
    unfold readType
    rw [h1]
    simp only [chop_concat, Res.bind_ok]
  refine ⟨{ b with buf := tail.take (size - text.length) }, ?_, hinv, ?_⟩
  · unfold parseRest
    rw [h4, Res.bind_ok]
    dsimp only
    rw [if_neg (by decide), if_neg (by decide), if_pos rfl]
    have h5 : readNum ({ b with buf := decimal content.length ++ NUL :: (content ++ tail.take (size - text.length)) } : Bufio ρ) =
        .ok ((content.length : Int), { b with buf := content ++ tail.take (size - text.length) }) := by
      unfold readNum
      rw [readString_in (splitAt_notin _ _ _ (nul_notin_decimal _))]
      simp only [Res.bind_ok, chop_concat]
      rw [(atoi_iff _ _).2 ⟨canonical_signed (decimal_canonical _), by omega, by omega⟩]
      rfl
    unfold decodeBlobRest
    rw [h5, Res.bind_ok]
    dsimp only
    rw [if_neg (by omega)]
    have h6 := readLimited_in (ρ := ρ)
      (Bufio.calls ({ b with buf := content ++ tail.take (size - text.length) } : Bufio ρ)) content []
      (tail.take (size - text.length)) { b with buf := content ++ tail.take (size - text.length) } rfl (by
        simp only [Bufio.calls, Bufio.left, List.length_append]
        omega)
    rw [List.length_nil, Nat.zero_add] at h6
    have h7 : Reader.readLimited (content.length : Int).toNat
        ({ b with buf := content ++ tail.take (size - text.length) } : Bufio ρ) =
        .ok (content, { b with buf := tail.take (size - text.length) }) := by
      show Bufio.readLimited _ _ _ _ = _
      rw [Int.toNat_natCast]
      simpa using h6
    rw [h7, Res.bind_ok]
    dsimp only
    rw [if_neg (by simp), Res.bind_ok, ht']
    simp [SP]
  · show pending b.src = _
    rw [hpend, hp, List.drop_append, List.drop_of_length_le hs, List.nil_append]

/-- So the next call of Decode on the reader begins a buffer full behind the first,
wherever that is. -/
theorem next_decode (D : Delivers ρ inv pending fin eager) (G : Greedy ρ inv pending) (r : ρ) (hr : inv r) (size : Nat)
    (room : Nat → Nat) (he : eager → fin = .eof ∧ (pending r).getLast? ≠ some CR) {content text tail : Bytes}
    (hl : content.length < 2 ^ 63) (ht : Framed b!"blob" content text) (hp : pending r = text ++ tail) (hs : text.length ≤ size) :
    ∃ b, parseRest (newReader r size room) = .ok (.blob text, some b) ∧
      parseObject (newReader b.src size room) = parseObject (σ := Stream) ⟨(pending r).drop size, fin, size⟩ := by
  obtain ⟨b, h1, h2, h3⟩ := blob_takes_buffer D G r hr size room hl ht hp hs
  have hpos : 0 < size := by
    rw [framed_decimal ht] at hs
    simp at hs
    omega
  have hd : (pending r).drop size = pending b.src := by
    rw [h3, hp, List.drop_append, List.drop_of_length_le hs, List.nil_append]
  refine ⟨b, h1, ?_⟩
  rw [hd]
  refine delivery_parse D b.src h2 size hpos room fun h => ⟨(he h).1, ?_⟩
  have := (he h).2
  rw [← List.take_append_drop size (pending r), hd] at this
  exact getLast?_suffix this

end

/-- A `bytes.Reader`, as `ParseObjectFromBuffer` makes it (/repo/helper.go:41-43). -/
structure InMemory where
  rest : Bytes

instance : Source InMemory where
  read k r := if r.rest = [] then (([], some .eof), r) else ((r.rest.take k, none), ⟨r.rest.drop k⟩)
  left r := r.rest.length
  idle _ := 0

theorem inMemory_delivers : Delivers InMemory (fun _ => True) InMemory.rest .eof False where
  stays := fun _ _ _ _ => trivial
  size k s _ _ := by
    simp only [Source.read]
    split <;> simp
    omega
  data k s _ _ := by
    simp only [Source.read]
    split <;> simp_all
  err k s x _ _ h := by
    simp only [Source.read] at h ⊢
    split at h
    · rename_i he
      cases h
      exact ⟨rfl, by rw [if_pos he]; exact he⟩
    · cases h
  together k s x _ _ h h' := by
    simp only [Source.read] at h h'
    split at h
    · rename_i he
      rw [if_pos he] at h'
      exact absurd rfl h'
    · cases h
  progress k s hk _ h h' := by
    simp only [Source.read] at h h'
    split at h
    · cases h
    · rename_i he
      rw [if_neg he] at h'
      rcases List.take_eq_nil_iff.1 h' with h' | h'
      · omega
      · exact absurd h' he
  idle _ _ := by simp [Source.idle]
  left _ _ := rfl

theorem inMemory_greedy : Greedy InMemory (fun _ => True) InMemory.rest := by
  intro k s _ _
  simp only [Source.read]
  split
  · rename_i he
    rw [he]
    simp
  · rfl

/-- Two blobs in memory, less than a buffer full: the second is lost. -/
example (room : Nat → Nat) : ∃ b, parseRest (newReader (⟨b!"blob 2\x00hi" ++ b!"blob 2\x00ho"⟩ : InMemory) 4096 room) =
      .ok (.blob b!"blob 2\x00hi", some b) ∧ parseObject (newReader b.src 4096 room) = .err .unexpectedEof := by
  obtain ⟨b, h1, h2⟩ := next_decode inMemory_delivers inMemory_greedy ⟨b!"blob 2\x00hi" ++ b!"blob 2\x00ho"⟩ trivial 4096 room nofun
    (content := b!"hi") (by decide) ⟨b!"2", ⟨by decide, by simp [Digit], by decide, rfl⟩, rfl⟩ rfl (by decide)
  exact ⟨b, h1, h2.trans (by decide +kernel)⟩

end Verif.Props
