import Verif.Proofs.Long
import Verif.Proofs.Sim
import Verif.Props.Headers

/-!
# Long lines: C35, and the number of reads: C22
-/

namespace Verif.Props

open Verif Spec

/-! ## C35 Long header lines survive

False of the code: `ReadLine` hands out a line longer than its buffer in pieces, and
the decoder takes each piece for a line of its own. -/

/-- A header of the size of the buffer or longer is cut after one buffer full, and
what follows in the same line is taken for headers of its own. -/
theorem long_line_splits {d : Bytes} (hd : SizeText d) (N : Nat) (hN : 4096 ≤ N) (pre post : List Item)
    (f : Bytes) (hlen : f.length = N) (hlf : LF ∉ f) (hcr : f.getLast? ≠ some CR) (hsp : f.head? ≠ some SP)
    (hk : ∀ p ∈ knownHeaders, ¬ p <+: f) (hpre : ItemsOk N pre) (hpost : ItemsOk N post) (msg : Bytes) :
    parseObject (σ := Stream) ⟨b!"commit " ++ d ++ NUL :: (itemsText pre ++ (f ++ itemsBody post msg)), .eof, N⟩ =
      .ok (.commit (commitOf (pre ++ [.other f] ++ post) msg)) := by
  have hN2 : 2 ≤ N := by omega
  have hne : f ≠ [] := by rintro rfl; simp at hlen; omega
  have hstart : StartsOk N .eof (f ++ itemsBody post msg) :=
    ⟨f, _, Stream.readLine_fragment _ _ hlen (by omega) hlf hcr, hsp⟩
  rw [parse_commit_size hd, commitRun_items pre _ _ _ N hN hpre hstart,
    commitRun_fragment _ _ _ _ _ hlen hN2 hlf hcr, commitLine_other _ _ _ hN2 hne hk]
  simp only [Res.bind_ok]
  unfold itemsBody
  rw [commitRun_items post _ _ _ N hN hpost (startsOk_message N hN .eof msg), commitRun_message _ _ _ hN]
  unfold commitOf
  rw [List.foldl_append, List.foldl_append]
  rfl

/-- So, whatever the buffer size, one unknown header line can forge a parent; with
a larger buffer the same bytes have no parent. -/
theorem long_line_forges_parent (N : Nat) (hN : 4096 ≤ N) (x sha : Bytes) (hx : x.length + 1 = N) (hlf : LF ∉ x)
    (hcr : x.getLast? ≠ some CR) (hsha : sha.length = 20) (msg : Bytes) :
    let line := b!"x" ++ x ++ b!"parent " ++ hex sha
    LF ∉ line ∧
    parseObject (σ := Stream) ⟨b!"commit 0\x00" ++ (line ++ LF :: LF :: msg), .eof, N⟩ =
      .ok (.commit { noCommit with parents := [gitLink sha], other := [b!"x" ++ x], message := msg }) ∧
    ∀ N', N + 47 < N' →
      parseObject (σ := Stream) ⟨b!"commit 0\x00" ++ (line ++ LF :: LF :: msg), .eof, N'⟩ =
        .ok (.commit { noCommit with other := [line], message := msg }) := by
  intro line
  have hd : SizeText b!"0" := sizeText_decimal 0 (by omega)
  have hxne : x ≠ [] := by rintro rfl; simp at hx; omega
  have hunknown : ∀ y : Bytes, ∀ p ∈ knownHeaders, ¬ p <+: b!"x" ++ y := by
    intro y p hp h
    simp only [knownHeaders, List.mem_cons, List.not_mem_nil, or_false] at hp
    rcases hp with rfl | rfl | rfl | rfl | rfl | rfl | rfl <;>
      simp [List.cons_prefix_cons] at h
  have hf : LF ∉ b!"x" ++ x := by
    rw [List.mem_append]; exact fun h => h.elim (by decide) hlf
  have href := headerLine_ref (4096 : Nat) b!"parent " _ sha (by decide) (ref_hex sha hsha) (by decide)
  have hline : line = (b!"x" ++ x) ++ (b!"parent " ++ hex sha) := by simp [line]
  have hnl : LF ∉ line := by
    rw [hline, List.mem_append]; exact fun h => h.elim hf href.noLF
  have hhl : (hex sha).length = 40 := by rw [hexOf_length (ref_hex sha hsha).1, hsha]
  refine ⟨hnl, ?_, ?_⟩
  · have := long_line_splits hd N hN [] [.parent (hex sha) sha] (b!"x" ++ x) (by simp; omega) hf
      (by simp [List.getLast?_cons]; cases h : x.getLast? <;> simp_all) (by simp; decide) (hunknown x) trivial
      ⟨ref_hex sha hsha, by simp, trivial⟩ msg
    rw [show b!"commit 0\x00" ++ (line ++ LF :: LF :: msg) =
      b!"commit " ++ b!"0" ++ NUL :: (itemsText [] ++ ((b!"x" ++ x) ++ itemsBody [.parent (hex sha) sha] msg)) by
        simp [line, itemsText, itemsBody, Item.text, unlines]]
    exact this
  · intro N' hN'
    have := parse_items hd N' (by omega) [.other line]
      ⟨⟨⟨hnl, ?_, by simp [line]; omega⟩, by simp [line], by
        rw [show line = b!"x" ++ (x ++ b!"parent " ++ hex sha) by simp [line]]
        exact hunknown _⟩, by simp, trivial⟩ msg
    · rw [show b!"commit 0\x00" ++ (line ++ LF :: LF :: msg) =
        b!"commit " ++ b!"0" ++ NUL :: itemsBody [.other line] msg by
          simp [itemsText, itemsBody, Item.text, unlines]]
      exact this
    · have h1 := href.noCR
      rw [hline]
      rw [List.getLast?_append]
      cases h : (b!"parent " ++ hex sha).getLast? with
      | none => simp at h
      | some c => rw [h] at h1; simpa using h1

/-- An `x` of that kind exists for every buffer size. -/
example (N : Nat) (hN : 4096 ≤ N) : ∃ x : Bytes, x.length + 1 = N ∧ LF ∉ x ∧ x.getLast? ≠ some CR :=
  ⟨List.replicate (N - 1) 120, by simp; omega, by simp; intro _; decide, by
    intro h
    have := List.mem_of_getLast? h
    simp at this
    exact absurd this.2 (by decide)⟩

/-- Every piece of the stream without line feed is shorter than both buffers. -/
def ShortLines (N N' : Nat) (b : Bytes) : Prop := ∀ l, l <:+: b → LF ∉ l → l.length < N ∧ l.length < N'

theorem shortLines_suffix {N N' : Nat} {a b : Bytes} (h : ShortLines N N' b) (hs : a <:+ b) : ShortLines N N' a :=
  fun l hl => h l (hl.trans hs.isInfix)

/-- Same stream, different buffers. -/
structure SameStream (s t : Stream) : Prop where
  rest : s.rest = t.rest
  fin : s.fin = t.fin
  short : ShortLines s.bufsz t.bufsz s.rest

theorem readLine_short (s : Stream) (N : Nat) (h : ShortLines s.bufsz N s.rest) :
    Stream.readLine s =
      match splitAt LF s.rest with
      | some (a, r) => .ok (dropCR a, { s with rest := r })
      | none => if s.rest = [] then .err s.fin else .ok (s.rest, { s with rest := [] }) := by
  cases hs : splitAt LF s.rest with
  | some p =>
    obtain ⟨a, r⟩ := p
    obtain ⟨hr, hn⟩ := splitAt_some _ _ _ _ hs
    have hl := (h a ⟨[], LF :: r, by rw [hr]; simp⟩ hn).1
    have ht : s.rest.take s.bufsz = a ++ LF :: r.take (s.bufsz - a.length - 1) := by
      rw [hr, List.take_append, List.take_of_length_le (by omega)]
      have : s.bufsz - a.length = (s.bufsz - a.length - 1) + 1 := by omega
      rw [this]; simp
    unfold Stream.readLine
    cases hh : s.rest with
    | nil => rw [hh] at hr; simp at hr
    | cons c cs =>
      simp only
      rw [← hh, ht, splitAt_notin _ _ _ hn, hr]
      simp
  | none =>
    have hn := (splitAt_none _ _).1 hs
    have hl := (h s.rest (List.infix_refl _) hn).1
    cases hh : s.rest with
    | nil => unfold Stream.readLine; rw [hh]; simp
    | cons c cs =>
      have := Stream.readLine_last (N := s.bufsz) (l := s.rest) s.fin (by rw [hh]; simp) hn hl
      rw [hh] at this
      simp only [reduceCtorEq, if_false]
      rw [← this]
      cases s; simp_all

theorem short_sim : ReaderSim SameStream where
  readString d s t h := by
    show RelRes _ (Stream.readString d s) (Stream.readString d t)
    unfold Stream.readString
    rw [← h.rest]
    cases hs : splitAt d s.rest with
    | none => exact h.fin
    | some p =>
      obtain ⟨a, r⟩ := p
      obtain ⟨hr, _⟩ := splitAt_some _ _ _ _ hs
      exact ⟨rfl, rfl, h.fin, shortLines_suffix h.short ⟨a ++ [d], by rw [hr]; simp⟩⟩
  readLine s t h := by
    show RelRes _ (Stream.readLine s) (Stream.readLine t)
    rw [readLine_short s _ h.short, readLine_short t s.bufsz
      (by intro l hl hn; rw [← h.rest] at hl; exact (h.short l hl hn).symm), ← h.rest]
    cases hs : splitAt LF s.rest with
    | none =>
      by_cases he : s.rest = []
      · simp only [if_pos he]; exact h.fin
      · simp only [if_neg he]
        exact ⟨rfl, rfl, h.fin, shortLines_suffix h.short (List.nil_suffix)⟩
    | some p =>
      obtain ⟨a, r⟩ := p
      obtain ⟨hr, _⟩ := splitAt_some _ _ _ _ hs
      exact ⟨rfl, rfl, h.fin, shortLines_suffix h.short ⟨a ++ [LF], by rw [hr]; simp⟩⟩
  readAll s t h := by
    show RelRes _ (Stream.readAll s) (Stream.readAll t)
    unfold Stream.readAll
    rw [← h.rest, ← h.fin]
    split
    · exact ⟨rfl, rfl, rfl, shortLines_suffix h.short (List.nil_suffix)⟩
    · exact rfl
  readFull n s t h := by
    show RelRes _ (Stream.readFull n s) (Stream.readFull n t)
    unfold Stream.readFull
    rw [← h.rest, ← h.fin]
    split
    · exact ⟨rfl, rfl, rfl, shortLines_suffix h.short (List.drop_suffix _ _)⟩
    · split
      · split <;> exact rfl
      · exact rfl
  readLimited n s t h := by
    show RelRes _ (Stream.readLimited n s) (Stream.readLimited n t)
    unfold Stream.readLimited
    rw [← h.rest, ← h.fin]
    split
    · exact ⟨rfl, rfl, rfl, shortLines_suffix h.short (List.drop_suffix _ _)⟩
    · split
      · exact ⟨rfl, rfl, rfl, shortLines_suffix h.short (List.nil_suffix)⟩
      · exact rfl
  left s t h := by show s.rest.length = t.rest.length; rw [h.rest]

/-- What holds: as long as every line is shorter than the buffer, the size of the
buffer does not matter. Missing from the claim: lines as long as the buffer. -/
theorem buffer_size_irrelevant_partial (b : Bytes) (e : Err) (N N' : Nat) (h : ShortLines N N' b) :
    parseObject (σ := Stream) ⟨b, e, N⟩ = parseObject (σ := Stream) ⟨b, e, N'⟩ :=
  sim_parseObject short_sim _ _ ⟨rfl, rfl, h⟩

example : ShortLines 4096 8192 b!"commit 0\x00tree \nx\n\nmessage" := by
  intro l hl _
  have := hl.length_le
  simp at this
  omega

/-- The message is outside this restriction: with well-formed headers, it may have
lines of any length. -/
theorem buffer_size_message {d : Bytes} (hd : SizeText d) (N N' : Nat) (hN : 4096 ≤ N) (hN' : N ≤ N')
    (is : List Item) (h : ItemsOk N is) (h' : ItemsOk N' is) (msg : Bytes) :
    parseObject (σ := Stream) ⟨b!"commit " ++ d ++ NUL :: itemsBody is msg, .eof, N⟩ =
      parseObject (σ := Stream) ⟨b!"commit " ++ d ++ NUL :: itemsBody is msg, .eof, N'⟩ := by
  rw [parse_items hd N hN is h, parse_items hd N' (by omega) is h']

/-! ## C22 The number of reads is bounded by the length of the stream -/

/-- A reader that fails with the otherwise impossible error `fuel` after `budget`
calls of `ReadString`, `ReadLine` and `ReadFull`. (`ReadAll` and the copying of a
blob's body are not counted: the code calls them at most once per `ReadLine` and once
per blob.) -/
structure Metered where
  stream : Stream
  budget : Nat

/-- Charge one call. -/
def Metered.charge (m : Metered) (f : Stream → Res (Bytes × Stream)) : Res (Bytes × Metered) :=
  match m.budget with
  | 0 => .err .fuel
  | n + 1 => f m.stream >>= fun p => .ok (p.1, ⟨p.2, n⟩)

instance : Reader Metered where
  readString d m := m.charge (Stream.readString d)
  readLine m := m.charge Stream.readLine
  readAll m := Stream.readAll m.stream >>= fun p => .ok (p.1, ⟨p.2, m.budget⟩)
  readFull n m := if n = 0 then .ok ([], m) else m.charge (Stream.readFull n)
  readLimited n m := Stream.readLimited n m.stream >>= fun p => .ok (p.1, ⟨p.2, m.budget⟩)
  left m := m.stream.rest.length

/-- The budget allows one call per byte, and one more. -/
structure Affordable (m : Metered) (s : Stream) : Prop where
  stream : m.stream = s
  budget : s.rest.length < m.budget
  size : 2 ≤ s.bufsz

theorem charge_sim {m : Metered} {s : Stream} (h : Affordable m s) (f : Stream → Res (Bytes × Stream))
    (hf : ∀ x s', f s = .ok (x, s') → s'.rest.length < s.rest.length ∧ s'.bufsz = s.bufsz) :
    RelRes Affordable (m.charge f) (f s) := by
  unfold Metered.charge
  have hb := h.budget
  cases hm : m.budget with
  | zero => omega
  | succ n =>
    simp only [h.stream]
    cases hr : f s with
    | err e => exact rfl
    | panic => trivial
    | ok p =>
      obtain ⟨x, s'⟩ := p
      have := hf _ _ hr
      exact ⟨rfl, rfl, by dsimp only; omega, by rw [this.2]; exact h.size⟩

theorem free_sim {m : Metered} {s : Stream} (h : Affordable m s) (f : Stream → Res (Bytes × Stream))
    (hf : ∀ x s', f s = .ok (x, s') → s'.rest.length ≤ s.rest.length ∧ s'.bufsz = s.bufsz) :
    RelRes Affordable (f m.stream >>= fun p => .ok (p.1, ⟨p.2, m.budget⟩)) (f s) := by
  have hb := h.budget
  rw [h.stream]
  cases hr : f s with
  | err e => exact rfl
  | panic => trivial
  | ok p =>
    obtain ⟨x, s'⟩ := p
    have := hf _ _ hr
    exact ⟨rfl, rfl, by dsimp only; omega, by rw [this.2]; exact h.size⟩

theorem metered_sim : ReaderSim Affordable where
  readString d m s h := charge_sim h _ fun x s' hr => by
    obtain ⟨a, _, _, h1, _, h2⟩ := Stream.readString_ok _ _ _ _ hr
    rw [h1]
    exact ⟨by simp; omega, h2⟩
  readLine m s h := charge_sim h _ fun x s' hr => by
    have := Stream.readLine_shrinks s s' x h.size hr
    exact ⟨this.1, this.2.2⟩
  readAll m s h := free_sim h _ fun x s' hr => by
    unfold Stream.readAll at hr
    split at hr
    · simp only [Res.ok.injEq, Prod.mk.injEq] at hr
      obtain ⟨rfl, rfl⟩ := hr
      simp
    · simp at hr
  readFull n m s h := by
    by_cases hn : n = 0
    · subst hn
      show RelRes _ (if (0 : Nat) = 0 then _ else _) (Stream.readFull 0 s)
      unfold Stream.readFull
      rw [if_pos rfl, if_pos (by omega)]
      exact ⟨by simp, by simpa using h⟩
    · show RelRes _ (if n = 0 then _ else _) (Stream.readFull n s)
      rw [if_neg hn]
      refine charge_sim h _ fun x s' hr => ?_
      unfold Stream.readFull at hr
      split at hr
      · simp only [Res.ok.injEq, Prod.mk.injEq] at hr
        obtain ⟨rfl, rfl⟩ := hr
        simp; omega
      · split at hr
        · split at hr <;> simp at hr
        · simp at hr
  readLimited n m s h := free_sim h _ fun x s' hr => by
    unfold Stream.readLimited at hr
    split at hr
    · simp only [Res.ok.injEq, Prod.mk.injEq] at hr
      obtain ⟨rfl, rfl⟩ := hr
      simp
    · split at hr
      · simp only [Res.ok.injEq, Prod.mk.injEq] at hr
        obtain ⟨rfl, rfl⟩ := hr
        simp
      · simp at hr
  left m s h := by show m.stream.rest.length = s.rest.length; rw [h.stream]

/-- Decoding makes at most one counted call per byte of input, and one more: a reader
that breaks down after that many calls gives the same result. -/
theorem reads_linear (s : Stream) (hN : 2 ≤ s.bufsz) (n : Nat) (hn : s.rest.length < n) :
    parseObject (⟨s, n⟩ : Metered) = parseObject s :=
  sim_parseObject metered_sim _ _ ⟨rfl, hn, hN⟩

theorem reads_linear_decode {β : Type} (na : Sink β) (s : Stream) (hN : 2 ≤ s.bufsz) (n : Nat)
    (hn : s.rest.length < n) : decode na (⟨s, n⟩ : Metered) = decode na s :=
  sim_decode metered_sim na _ _ ⟨rfl, hn, hN⟩

/-- The meter does run out: this stream takes six calls. -/
example : parseObject (⟨⟨b!"tag \x00x\ny\nz\n", .eof, 4096⟩, 5⟩ : Metered) = .err .fuel ∧
    parseObject (⟨⟨b!"tag \x00x\ny\nz\n", .eof, 4096⟩, 6⟩ : Metered) = .ok (.tag Tag.zero) := by
  decide +kernel

end Verif.Props
