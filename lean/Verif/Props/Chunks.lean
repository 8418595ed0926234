import Verif.Model.Script
import Verif.Proofs.Bufio
import Verif.Proofs.Long
import Verif.Props.Robust
import Verif.Props.Headers

/-!
# Delivery of the bytes: C23
-/

namespace Verif.Props

open Verif Spec

/-! ## C23 Decoding does not depend on how the reader delivers bytes -/

/-- `bufio.NewReader(r)`: empty buffer, no pending error. -/
def newReader {ρ : Type} (r : ρ) (size : Nat) (room : Nat → Nat) : Bufio ρ :=
  ⟨[], none, r, size, room⟩

theorem newReader_match {ρ : Type} [Source ρ] {inv : ρ → Prop} {pending : ρ → Bytes} {fin : Err} {eager : Prop}
    (r : ρ) (hr : inv r) (size : Nat) (hs : 0 < size) (room : Nat → Nat)
    (he : eager → fin = .eof ∧ (pending r).getLast? ≠ some CR) :
    Match inv pending fin eager (newReader r size room) ⟨pending r, fin, size⟩ :=
  ⟨⟨hr, rfl, rfl, rfl, by simp [newReader], hs, by simp [newReader], by simp [newReader]⟩, he⟩

/-- Parsing from any `io.Reader` that delivers `pending r` and then `fin`, through a
buffered reader, is parsing the abstract stream. A final error delivered together
with the last bytes has to be EOF, and the stream must then not end in CR. -/
theorem delivery_parse {ρ : Type} [Source ρ] {inv : ρ → Prop} {pending : ρ → Bytes} {fin : Err} {eager : Prop}
    (D : Delivers ρ inv pending fin eager) (r : ρ) (hr : inv r) (size : Nat) (hs : 0 < size)
    (room : Nat → Nat) (he : eager → fin = .eof ∧ (pending r).getLast? ≠ some CR) :
    parseObject (newReader r size room) = parseObject (σ := Stream) ⟨pending r, fin, size⟩ :=
  sim_parseObject (bufio_sim D) _ _ (newReader_match r hr size hs room he)

/-- The same for `Decode` with any assembler. -/
theorem delivery_decode {ρ β : Type} [Source ρ] {inv : ρ → Prop} {pending : ρ → Bytes} {fin : Err}
    {eager : Prop} (D : Delivers ρ inv pending fin eager) (r : ρ) (hr : inv r) (size : Nat) (hs : 0 < size)
    (room : Nat → Nat) (he : eager → fin = .eof ∧ (pending r).getLast? ≠ some CR) (na : Sink β) :
    decode na (newReader r size room) = decode (σ := Stream) na ⟨pending r, fin, size⟩ :=
  sim_decode (bufio_sim D) na _ _ (newReader_match r hr size hs room he)

/-- Two readers that deliver the same bytes and the same error, never together with
data, give the same node or the same error. -/
theorem delivery_irrelevant {ρ τ : Type} [Source ρ] [Source τ] {inv : ρ → Prop} {pending : ρ → Bytes}
    {inv' : τ → Prop} {pending' : τ → Bytes} {fin : Err}
    (D : Delivers ρ inv pending fin False) (D' : Delivers τ inv' pending' fin False)
    (r : ρ) (t : τ) (hr : inv r) (ht : inv' t) (hp : pending r = pending' t)
    (size : Nat) (hs : 0 < size) (room room' : Nat → Nat) :
    parseObject (newReader r size room) = parseObject (newReader t size room') := by
  rw [delivery_parse D r hr size hs room (fun h => h.elim), delivery_parse D' t ht size hs room' (fun h => h.elim),
    hp]

/-- There are never 100 empty chunks in a row. -/
def Patient (s : Script) : Prop := ∀ pre cs, s.chunks = pre ++ cs → Script.empties cs < 100

/-- Lists of chunks are readers in the sense of the theorems. -/
theorem script_delivers (fin : Err) (eager : Bool) :
    Delivers Script (fun s => s.fin = fin ∧ s.eager = eager ∧ Patient s) (fun s => s.chunks.flatten) fin
      (eager = true) where
  stays k s hk h := by
    obtain ⟨h1, h2, h3⟩ := h
    simp only [Source.read, Script.read]
    split
    · exact ⟨h1, h2, h3⟩
    · rename_i c cs hc
      split
      · refine ⟨h1, h2, ?_⟩
        intro pre cs' h
        exact h3 (c :: pre) cs' (by rw [hc]; simp at h; rw [h]; rfl)
      · rename_i hl
        refine ⟨h1, h2, ?_⟩
        intro pre cs' h
        dsimp only at h
        cases pre with
        | nil =>
          rw [List.nil_append] at h
          subst h
          cases hd : c.drop k with
          | nil =>
            have := congrArg List.length hd
            simp at this
            omega
          | cons x xs => simp [Script.empties]
        | cons p pre =>
          simp only [List.cons_append, List.cons.injEq] at h
          exact h3 (c :: pre) cs' (by rw [hc, h.2]; rfl)
  size k s hk h := by
    simp only [Source.read, Script.read]
    split
    · simp
    · split
      · assumption
      · simp; omega
  data k s hk h := by
    simp only [Source.read, Script.read]
    split
    · simp
    · rename_i c cs hc
      split
      · simp [hc]
      · simp only [hc, List.flatten_cons]
        rw [← List.append_assoc, List.take_append_drop]
  err k s x hk h hx := by
    revert hx
    simp only [Source.read, Script.read]
    split
    · rename_i hc
      intro hx
      simp only [Option.some.injEq] at hx
      exact ⟨hx ▸ h.1, by simp [hc]⟩
    · split
      · intro hx
        split at hx
        · rename_i hcs
          simp only [Option.some.injEq] at hx
          exact ⟨hx ▸ h.1, by simp [hcs.1]⟩
        · simp at hx
      · intro hx; simp at hx
  together k s x hk h hx hne := by
    revert hx hne
    simp only [Source.read, Script.read]
    split
    · intro _ hne; simp at hne
    · split
      · intro hx _
        split at hx
        · rename_i hcs
          rw [← h.2.1]; exact hcs.2
        · simp at hx
      · intro hx; simp at hx
  progress k s hk h hx hn := by
    revert hx hn
    simp only [Source.read, Script.read, Source.idle]
    split
    · intro hx; simp at hx
    · rename_i c cs hc
      split
      · intro _ hn
        dsimp only at hn
        rw [hc, hn]
        simp [Script.empties]
      · intro _ hn
        have : (c.take k).length = 0 := congrArg List.length hn
        rw [List.length_take] at this
        omega
  idle s h := h.2.2 [] s.chunks rfl
  left s _ := rfl

/-- In particular: however a stream is cut into chunks, with EOF after or together
with the last chunk, the result is that of the unbroken stream. Missing, because
false (`eager_cr_differs`, `eager_error_differs`): EOF together with a last chunk that
ends in CR, and other errors together with data. -/
theorem chunks_irrelevant_partial (chunks : List Bytes) (fin : Err) (eager : Bool) (hp : Patient ⟨chunks, fin, eager⟩)
    (he : eager = true → fin = .eof ∧ chunks.flatten.getLast? ≠ some CR)
    (size : Nat) (hs : 0 < size) (room : Nat → Nat) :
    parseObject (newReader (⟨chunks, fin, eager⟩ : Script) size room) =
      parseObject (σ := Stream) ⟨chunks.flatten, fin, size⟩ :=
  delivery_parse (script_delivers fin eager) _ ⟨rfl, rfl, hp⟩ size hs room he

/-- Three chunks, one empty, the last together with EOF, read with a tiny buffer. -/
example : parseObject (newReader (⟨[b!"bl", [], b!"ob 3\x00a", b!"bc"], .eof, true⟩ : Script) 16 (fun _ => 511)) =
    .ok (.blob b!"blob 3\x00abc") := by
  rw [chunks_irrelevant_partial _ _ _ (by
    intro pre cs h
    have : Script.empties cs ≤ cs.length := by
      clear h
      induction cs with
      | nil => simp [Script.empties]
      | cons c cs ih => cases c <;> simp [Script.empties]; exact ih
    have := congrArg List.length h
    simp at this
    omega) (by decide) _ (by decide)]
  decide

/-- Few chunks are patient. -/
theorem patient_short (s : Script) (h : s.chunks.length < 100) : Patient s := by
  intro pre cs hc
  have h1 : Script.empties cs ≤ cs.length := by
    clear hc
    induction cs with
    | nil => simp [Script.empties]
    | cons c cs ih => cases c <;> simp [Script.empties]; exact ih
  have := congrArg List.length hc
  rw [List.length_append] at this
  omega

theorem fill_chunk (c : Bytes) (cs : List Bytes) (e : Err) (g : Bool) (N : Nat) (room : Nat → Nat)
    (h0 : c ≠ []) (hN : c.length ≤ N) :
    Bufio.fill 100 ⟨[], none, (⟨c :: cs, e, g⟩ : Script), N, room⟩ =
      ⟨c, if cs = [] ∧ g = true then some e else none, ⟨cs, e, g⟩, N, room⟩ := by
  have h0 := List.length_pos_iff.2 h0
  rw [show (100 : Nat) = 99 + 1 from rfl, Bufio.fill]
  have hr : Source.read N (⟨c :: cs, e, g⟩ : Script) =
      ((c, if cs = [] ∧ g = true then some e else none), ⟨cs, e, g⟩) := by
    simp only [Source.read, Script.read]; rw [if_pos hN]
  simp only [List.length_nil, Nat.sub_zero, List.nil_append]
  rw [hr]
  by_cases h : cs = [] ∧ g = true
  · simp only [if_pos h]
  · simp only [if_neg h, if_pos h0]

theorem fill_end (e : Err) (g : Bool) (N : Nat) (room : Nat → Nat) :
    Bufio.fill 100 ⟨[], none, (⟨[], e, g⟩ : Script), N, room⟩ = ⟨[], some e, ⟨[], e, g⟩, N, room⟩ := rfl

theorem readSlice_found {ρ : Type} [Source ρ] (d : UInt8) (f : Nat) (b : Bufio ρ) (x y : Bytes)
    (h : splitAt d b.buf = some (x, y)) :
    Bufio.readSlice d (f + 1) b = .ok ((x ++ [d], .found), { b with buf := y }) := by
  rw [Bufio.readSlice, h]

theorem readSlice_fill {ρ : Type} [Source ρ] (d : UInt8) (f : Nat) (b : Bufio ρ)
    (h : splitAt d b.buf = none) (he : b.err = none) (hl : b.buf.length < b.size) :
    Bufio.readSlice d (f + 1) b = Bufio.readSlice d f (Bufio.fill 100 b) := by
  rw [Bufio.readSlice, h, he]
  exact if_neg (by omega)

theorem readSlice_err {ρ : Type} [Source ρ] (d : UInt8) (f : Nat) (b : Bufio ρ) (e : Err)
    (h : splitAt d b.buf = none) (he : b.err = some e) :
    Bufio.readSlice d (f + 1) b = .ok ((b.buf, .err e), { b with buf := [], err := none }) := by
  rw [Bufio.readSlice, h, he]

theorem readString_buffered {ρ : Type} [Source ρ] (d : UInt8) (b : Bufio ρ) (x y : Bytes)
    (h : splitAt d b.buf = some (x, y)) :
    Reader.readString d b = .ok (x ++ [d], { b with buf := y }) := by
  show Bufio.readString d (b.left + 1 + 1) [] b = _
  rw [Bufio.readString, readSlice_found _ _ _ _ _ h]
  rfl

theorem readString_chunk (d : UInt8) (c : Bytes) (cs : List Bytes) (e : Err) (g : Bool) (N : Nat)
    (room : Nat → Nat) (x y : Bytes) (h : splitAt d c = some (x, y)) (hN : c.length ≤ N) :
    Reader.readString d (⟨[], none, (⟨c :: cs, e, g⟩ : Script), N, room⟩ : Bufio Script) =
      .ok (x ++ [d], ⟨y, if cs = [] ∧ g = true then some e else none, ⟨cs, e, g⟩, N, room⟩) := by
  have h0 : c ≠ [] := by rintro rfl; simp [splitAt] at h
  have := List.length_pos_iff.2 h0
  show Bufio.readString d (Bufio.left _ + 1 + 1) [] _ = _
  rw [Bufio.readString, readSlice_fill _ _ _ rfl rfl (by show 0 < N; omega), fill_chunk _ _ _ _ _ _ h0 hN,
    readSlice_found _ _ _ _ _ h]
  rfl

theorem readLine_eager (c : Bytes) (e : Err) (N : Nat) (room : Nat → Nat) (h0 : c ≠ []) (h : LF ∉ c)
    (hN : c.length ≤ N) :
    Reader.readLine (⟨[], none, (⟨[c], e, true⟩ : Script), N, room⟩ : Bufio Script) =
      .ok (c, ⟨[], none, ⟨[], e, true⟩, N, room⟩) := by
  have hp := List.length_pos_iff.2 h0
  show Bufio.readLine _ = _
  rw [Bufio.readLine, readSlice_fill _ _ _ rfl rfl (by show 0 < N; omega), fill_chunk _ _ _ _ _ _ h0 hN,
    readSlice_err _ _ _ e ((splitAt_none _ _).2 h) rfl]
  simp only [Res.bind_ok]
  rw [if_neg (by omega)]

theorem readLine_end (e : Err) (g : Bool) (N : Nat) (hN : 0 < N) (room : Nat → Nat) :
    Reader.readLine (⟨[], none, (⟨[], e, g⟩ : Script), N, room⟩ : Bufio Script) = .err e := by
  show Bufio.readLine _ = _
  rw [Bufio.readLine, readSlice_fill _ _ _ rfl rfl (by exact hN), fill_end, readSlice_err _ _ _ e rfl rfl]
  rfl

/-- The condition on CR is needed: a last line of exactly one buffer, ending in CR
and delivered together with EOF, is one line, and two lines otherwise. -/
theorem eager_cr_differs (x : Bytes) (room : Nat → Nat) (hl : x.length = 4094) (hx : LF ∉ x) :
    parseObject (newReader (⟨[b!"commit 0\x00", b!"x" ++ x ++ [CR]], .eof, true⟩ : Script) 4096 room) =
      .ok (.commit { noCommit with other := [b!"x" ++ x ++ [CR]] }) ∧
    parseObject (newReader (⟨[b!"commit 0\x00", b!"x" ++ x ++ [CR]], .eof, false⟩ : Script) 4096 room) =
      .ok (.commit { noCommit with other := [b!"x" ++ x, [CR]] }) := by
  have hlf : LF ∉ b!"x" ++ x ++ [CR] := by
    simp only [List.mem_append]
    rintro ((h | h) | h)
    · exact absurd h (by decide)
    · exact hx h
    · exact absurd h (by decide)
  have hat : atoi b!"0" = .ok 0 := by decide
  constructor
  · unfold parseObject readType
    rw [newReader, readString_chunk SP _ _ _ _ _ _ b!"commit" b!"0\x00" (by decide) (by simp)]
    simp only [Res.bind_ok, chop_concat]
    rw [if_neg (by decide), if_pos trivial]
    unfold decodeCommit readNum
    rw [readString_buffered NUL _ b!"0" [] (by rfl)]
    simp only [Res.bind_ok, chop_concat, hat]
    rw [commitLoop, if_neg (by simp), readLine_eager _ _ _ _ (by simp) hlf (by simp; omega)]
    simp only []
    have hline : ∀ f c (s : Bufio Script), commitLine (f + 1) c (b!"x" ++ x ++ [CR]) s =
        .ok ({ c with other := c.other ++ [b!"x" ++ x ++ [CR]] }, s) := by
      intro f c s
      rw [commitLine]
      simp [hasPrefix, List.isPrefixOf]
    rw [hline]
    simp only [Res.bind_ok]
    rw [show Reader.left (⟨[], none, (⟨[b!"x" ++ x ++ [CR]], Err.eof, true⟩ : Script), 4096, room⟩ : Bufio Script) =
      x.length + 1 + 1 by simp [Reader.left, Bufio.left, Source.left]]
    rw [commitLoop, readLine_end _ _ _ (by omega)]
    rfl
  · rw [chunks_irrelevant_partial _ _ _ (patient_short _ (by simp)) (by simp) _ (by decide)]
    rw [show [b!"commit 0\x00", b!"x" ++ x ++ [CR]].flatten =
      b!"commit " ++ b!"0" ++ NUL :: ((b!"x" ++ x) ++ CR :: []) by simp]
    have hd : SizeText b!"0" := sizeText_decimal 0 (by omega)
    rw [parse_commit_size hd, commitRun_fragment_cr _ _ _ _ _ (by simp; omega) (by omega)
      (by intro h; exact hlf (List.mem_append_left _ h)), List.singleton_append, commitLineRun_x _ _ _ (by decide)]
    simp only [Res.bind_ok]
    rw [commitRun_eq _ _ (by decide), Stream.readLine_last _ (by simp) (by decide) (by simp)]
    simp only
    rw [commitLineRun_eq _ _ _ (by decide)]
    simp [hasPrefix, List.isPrefixOf]
    rw [commitRun_eq _ _ (by decide)]
    rfl

/-- The condition on EOF is needed: another error delivered together with the last
bytes of a large blob makes it fail, although the blob is complete. -/
theorem eager_error_differs (body : Bytes) (hl : body.length = 4096) (n : Nat) :
    parseObject (newReader (⟨[b!"blob 4096\x00", body], .io n, true⟩ : Script) 4096 (fun _ => 8191)) =
      .err (.io n) ∧
    parseObject (newReader (⟨[b!"blob 4096\x00", body], .io n, false⟩ : Script) 4096 (fun _ => 8191)) =
      .ok (.blob (b!"blob 4096\x00" ++ body)) := by
  have hat : atoi b!"4096" = .ok 4096 := by decide
  have hne : body ≠ [] := by rintro rfl; simp at hl
  constructor
  · unfold parseObject readType
    rw [newReader, readString_chunk SP _ _ _ _ _ _ b!"blob" b!"4096\x00" (by decide) (by simp)]
    simp only [Res.bind_ok, chop_concat]
    rw [if_neg (by decide), if_neg (by decide), if_pos trivial]
    unfold decodeBlob readNum
    rw [readString_buffered NUL _ b!"4096" [] (by rfl)]
    simp only [Res.bind_ok, chop_concat, hat]
    rw [if_neg (by decide), if_neg (by simp)]
    have : Reader.readLimited (Int.toNat 4096)
        (⟨[], none, (⟨[body], .io n, true⟩ : Script), 4096, fun _ => 8191⟩ : Bufio Script) = .err (.io n) := by
      show Bufio.readLimited 4096 (Bufio.left _ * 100 + Source.idle _ + 1 + 1) [] _ = _
      rw [Bufio.readLimited, if_neg (by decide)]
      have hr : Bufio.read (min (8191 + 1) (4096 - 0))
          (⟨[], none, (⟨[body], .io n, true⟩ : Script), 4096, fun _ => 8191⟩ : Bufio Script) =
          ((body, some (.io n)), ⟨[], none, ⟨[], .io n, true⟩, 4096, fun _ => 8191⟩) := by
        unfold Bufio.read
        rw [if_pos rfl]
        simp only
        rw [if_pos (by decide)]
        simp [Source.read, Script.read, hl]
      simp only [List.length_nil]
      rw [hr]
      simp
    rw [this]
    rfl
  · rw [chunks_irrelevant_partial _ _ _ (patient_short _ (by simp)) (by simp) _ (by decide)]
    rw [show [b!"blob 4096\x00", body].flatten = b!"blob" ++ SP :: (b!"4096" ++ NUL :: body) by simp,
      parse_blob]
    unfold decodeBlob
    rw [readNum_stream _ _ _ _ (by decide), hat]
    simp [Reader.readLimited, Stream.readLimited, hl]
    rw [List.take_of_length_le (by omega), show decimal 4096 = b!"4096" by decide]
    rfl

end Verif.Props
