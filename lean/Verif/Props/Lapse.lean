import Verif.Proofs.Lapse
import Verif.Props.Failing
import Verif.Props.Fold

/-!
# What a read failure does to commits and tags: C72
-/

namespace Verif.Props

open Verif Spec

section

variable {ρ : Type} [Source ρ] {inv : ρ → Prop} {pending : ρ → Bytes} {fin : Err} {after : ρ → Prop} {n : Nat}

theorem pre_new {r : ρ} (hr : inv r) {size : Nat} (hs : 0 < size) (room : Nat → Nat) :
    Pre inv pending fin after (newReader r size room) (pending r) :=
  ⟨fun _ => ⟨hr, rfl⟩, (fun x h => by cases h), by simp [newReader], hs⟩

/-- Reading up to a delimiter that comes before the failure. -/
theorem pre_delim (D : Lapses ρ inv pending fin after n) (d : UInt8) (b : Bufio ρ) (x r : Bytes)
    (m : Pre inv pending fin after b (x ++ d :: r)) (hx : d ∉ x) :
    ∃ b', Reader.readString d b = .ok (x ++ [d], b') ∧ b'.size = b.size ∧ Pre inv pending fin after b' r := by
  have hL := pre_left D m
  obtain ⟨b', h1, h2, h3⟩ := readString_pre D d (b.left + 2) [] b x r m hx (by rw [hL]; simp; omega)
  exact ⟨b', h1, h2, h3⟩

theorem pre_no_delim (D : Lapses ρ inv pending fin after n) (d : UInt8) (b : Bufio ρ) (x : Bytes)
    (m : Pre inv pending fin after b x) (hx : d ∉ x) : Reader.readString d b = .err fin := by
  have hL := pre_left D m
  exact readString_fails D d (b.left + 2) [] b x m hx (by rw [hL]; omega)

/-- The header of a commit. -/
theorem pre_commit (D : Lapses ρ inv pending fin after n) (b : Bufio ρ) (d x : Bytes)
    (m : Pre inv pending fin after b (b!"commit " ++ d ++ NUL :: x)) (hd : NUL ∉ d) :
    ∃ b', b'.size = b.size ∧ Pre inv pending fin after b' x ∧
      parseObject b = (atoi d >>= fun _ => commitLoop (Reader.left b' + 1) Commit.zero b' >>= fun c =>
        .ok (.commit c)) := by
  obtain ⟨b1, h1, h2, h3⟩ := pre_delim D SP b b!"commit" (d ++ NUL :: x) (by simpa using m) (by decide)
  obtain ⟨b2, h4, h5, h6⟩ := pre_delim D NUL b1 d x h3 hd
  refine ⟨b2, by omega, h6, ?_⟩
  unfold parseObject readType
  rw [h1]
  simp only [Res.bind_ok, chop_concat]
  rw [if_neg (by decide), if_pos trivial]
  unfold decodeCommit readNum
  rw [h4]
  simp only [Res.bind_ok, chop_concat]
  cases atoi d <;> rfl

/-- The header of a tag. -/
theorem pre_tag (D : Lapses ρ inv pending fin after n) (b : Bufio ρ) (d x : Bytes)
    (m : Pre inv pending fin after b (b!"tag " ++ d ++ NUL :: x)) (hd : NUL ∉ d) :
    ∃ b', b'.size = b.size ∧ Pre inv pending fin after b' x ∧
      parseObject b = (tagLoop (Reader.left b' + 1) Tag.zero b' >>= fun c => .ok (.tag c)) := by
  obtain ⟨b1, h1, h2, h3⟩ := pre_delim D SP b b!"tag" (d ++ NUL :: x) (by simpa using m) (by decide)
  obtain ⟨b2, h4, h5, h6⟩ := pre_delim D NUL b1 d x h3 hd
  refine ⟨b2, by omega, h6, ?_⟩
  unfold parseObject readType
  rw [h1]
  simp only [Res.bind_ok, chop_concat]
  rw [if_neg (by decide), if_neg (by decide), if_neg (by decide), if_pos trivial]
  unfold decodeTag
  rw [h4]
  rfl

theorem lap_split {A B : Res Obj} {Q : Obj → Obj → Prop} {L : Obj → Prop} (h : Lap fin Q L A B)
    (hq : ∀ a b, Q a b → a = b) :
    (A = B ∧ ∀ o, B = .ok o → Q o o) ∨ (A = .err fin ∧ ∃ o, B = .ok o ∧ L o) := by
  cases h with
  | ok h =>
    have := hq _ _ h
    subst this
    exact .inl ⟨rfl, by intro o ho; cases ho; exact h⟩
  | err e => exact .inl ⟨rfl, by intro o ho; cases ho⟩
  | panic => exact .inl ⟨rfl, by intro o ho; cases ho⟩
  | lost h => exact .inr ⟨rfl, _, rfl, h⟩

end

/-! ## C72 A read failure acts as a line end -/

section

variable {ρ : Type} [Source ρ] {inv : ρ → Prop} {pending : ρ → Bytes} {fin : Err} {inv' : ρ → Prop}
  {pending' : ρ → Bytes} {y : Bytes} {eager : Prop}

/-- A failure inside a line of a commit acts as the end of that line: the outcome is that
of the text with a line end in place of the failure, unless the message begins before
the failure; then the error is reported. The line may be longer than the buffer. -/
theorem lapse_commit_any (F : FailsOnce ρ inv pending fin inv' pending' y eager) (r : ρ) (hr : inv r) (size : Nat)
    (room : Nat → Nat) (d u a k e : Bytes) (hp : pending r = b!"commit " ++ d ++ NUL :: (u ++ a)) (hd : NUL ∉ d)
    (hu : u = [] ∨ u.getLast? = some LF) (ha : LF ∉ a) (hs2 : 2 ≤ size)
    (ht : Torn size a k) (he : LineEnd size k e) :
    let A := parseObject (newReader r size room)
    let B := parseObject (σ := Stream) ⟨b!"commit " ++ d ++ NUL :: (u ++ (a ++ (e ++ y))), .eof, size⟩
    (A = B ∧ ∀ c, B = .ok (.commit c) → c.message.length ≤ y.length) ∨
      (A = .err fin ∧ ∃ c, B = .ok (.commit c) ∧ y.length < c.message.length) := by
  intro A B
  have m0 := pre_new (fin := fin) (after := fun s => inv' s ∧ pending' s = y) (pending := pending) hr
    (size := size) (by omega) room
  rw [hp] at m0
  obtain ⟨b, hs, m, hA⟩ := pre_commit F.before _ d (u ++ a) m0 hd
  have hs : b.size = size := hs
  have e1 : ∀ z, b!"commit " ++ d ++ NUL :: z = b!"commit" ++ SP :: (d ++ NUL :: z) := by
    intro z; simp
  have hB : B = (atoi d >>= fun _ => commitLoop (σ := Stream) ((u ++ (a ++ (e ++ y))).length + 1) Commit.zero
      ⟨u ++ (a ++ (e ++ y)), .eof, size⟩ >>= fun c => .ok (.commit c)) := by
    unfold B
    rw [e1, parse_commit]
    unfold decodeCommit
    rw [readNum_delim _ _ _ _ hd]
    cases atoi d <;> rfl
  have hlap : Lap fin (fun o o' => ∃ c, o = .commit c ∧ o' = .commit c ∧ c.message.length ≤ y.length)
      (fun o => ∃ c, o = .commit c ∧ y.length < c.message.length) A B := by
    rw [show A = _ from hA, hB]
    refine .same _ fun _ => ?_
    have := lapse_commitLoop (lapse_sim F.before F.later F.noEof (fun s h => h) F.noCR) (Reader.left b + 1)
      ((u ++ (a ++ (e ++ y))).length + 1) Commit.zero b ⟨u ++ (a ++ (e ++ y)), .eof, size⟩
      ⟨by omega, .inl ⟨u, a, k, e, m, hu, ha, by rw [hs]; exact ht, by rw [hs]; exact he, by rw [hs]⟩⟩ (Nat.zero_le _) (Nat.lt_succ_self _)
      (Nat.lt_succ_self _)
    generalize commitLoop (Reader.left b + 1) Commit.zero b = X at this
    generalize commitLoop (σ := Stream) ((u ++ (a ++ (e ++ y))).length + 1) Commit.zero
      ⟨u ++ (a ++ (e ++ y)), .eof, size⟩ = Y at this
    cases this with
    | ok h => exact .ok ⟨_, rfl, by rw [h.1], h.2⟩
    | err e => exact .err e
    | panic => exact .panic
    | lost h => exact .lost ⟨_, rfl, h⟩
  rcases lap_split hlap (by rintro _ _ ⟨c, rfl, rfl, -⟩; rfl) with ⟨h1, h2⟩ | ⟨h1, _, h2, c, rfl, h3⟩
  · refine .inl ⟨h1, fun c hc => ?_⟩
    obtain ⟨c', h3, -, h4⟩ := h2 _ hc
    cases h3
    exact h4
  · exact .inr ⟨h1, c, h2, h3⟩

/-- The same of tags. -/
theorem lapse_tag_any (F : FailsOnce ρ inv pending fin inv' pending' y eager) (r : ρ) (hr : inv r) (size : Nat)
    (room : Nat → Nat) (d u a k e : Bytes) (hp : pending r = b!"tag " ++ d ++ NUL :: (u ++ a)) (hd : NUL ∉ d)
    (hu : u = [] ∨ u.getLast? = some LF) (ha : LF ∉ a) (hs2 : 2 ≤ size)
    (ht : Torn size a k) (he : LineEnd size k e) :
    let A := parseObject (newReader r size room)
    let B := parseObject (σ := Stream) ⟨b!"tag " ++ d ++ NUL :: (u ++ (a ++ (e ++ y))), .eof, size⟩
    (A = B ∧ ∀ t, B = .ok (.tag t) → t.message.length ≤ y.length) ∨
      (A = .err fin ∧ ∃ t, B = .ok (.tag t) ∧ y.length < t.message.length) := by
  intro A B
  have m0 := pre_new (fin := fin) (after := fun s => inv' s ∧ pending' s = y) (pending := pending) hr
    (size := size) (by omega) room
  rw [hp] at m0
  obtain ⟨b, hs, m, hA⟩ := pre_tag F.before _ d (u ++ a) m0 hd
  have hs : b.size = size := hs
  have e1 : ∀ z, b!"tag " ++ d ++ NUL :: z = b!"tag" ++ SP :: (d ++ NUL :: z) := by
    intro z; simp
  have hB : B = (tagLoop (σ := Stream) ((u ++ (a ++ (e ++ y))).length + 1) Tag.zero
      ⟨u ++ (a ++ (e ++ y)), .eof, size⟩ >>= fun c => .ok (.tag c)) := by
    unfold B
    rw [e1, parse_tag]
    unfold decodeTag
    simp only [reader_readString, Stream.readString_delim _ _ _ _ _ hd, Res.bind_ok]
    rfl
  have hlap : Lap fin (fun o o' => ∃ c, o = .tag c ∧ o' = .tag c ∧ c.message.length ≤ y.length)
      (fun o => ∃ c, o = .tag c ∧ y.length < c.message.length) A B := by
    rw [show A = _ from hA, hB]
    have := lapse_tagLoop (lapse_sim F.before F.later F.noEof (fun s h => h) F.noCR) (Reader.left b + 1)
      ((u ++ (a ++ (e ++ y))).length + 1) Tag.zero b ⟨u ++ (a ++ (e ++ y)), .eof, size⟩
      ⟨by omega, .inl ⟨u, a, k, e, m, hu, ha, by rw [hs]; exact ht, by rw [hs]; exact he, by rw [hs]⟩⟩ (Nat.zero_le _) (Nat.lt_succ_self _)
      (Nat.lt_succ_self _)
    generalize tagLoop (Reader.left b + 1) Tag.zero b = X at this
    generalize tagLoop (σ := Stream) ((u ++ (a ++ (e ++ y))).length + 1) Tag.zero
      ⟨u ++ (a ++ (e ++ y)), .eof, size⟩ = Y at this
    cases this with
    | ok h => exact .ok ⟨_, rfl, by rw [h.1], h.2⟩
    | err e => exact .err e
    | panic => exact .panic
    | lost h => exact .lost ⟨_, rfl, h⟩
  rcases lap_split hlap (by rintro _ _ ⟨c, rfl, rfl, -⟩; rfl) with ⟨h1, h2⟩ | ⟨h1, _, h2, c, rfl, h3⟩
  · refine .inl ⟨h1, fun c hc => ?_⟩
    obtain ⟨c', h3, -, h4⟩ := h2 _ hc
    cases h3
    exact h4
  · exact .inr ⟨h1, c, h2, h3⟩

/-- All torn lines are covered but those that end on the brink of the buffer. -/
theorem lapse_covers (N : Nat) (hN : 2 ≤ N) (a : Bytes) (hne : a ≠ []) :
    (∃ k e, Torn N a k ∧ LineEnd N k e) ∨ Brink N a := by
  induction hlen : a.length using Nat.strongRecOn generalizing a with
  | _ n ih =>
    subst hlen
    by_cases h1 : a.length + 1 < N
    · exact .inl ⟨a, _, .rest hne (by omega), .inr ⟨rfl, h1⟩⟩
    · by_cases h2 : a.length + 1 = N
      · by_cases hc : a.getLast? = some CR
        · exact .inr (.cr h2 hc)
        · exact .inl ⟨a, _, .rest hne (by omega), .inl ⟨rfl, hc⟩⟩
      · by_cases h3 : a.length = N
        · exact .inr (.full h3)
        · have hf : (a.take N).length = N := by rw [List.length_take]; omega
          have hd : (a.drop N).length = a.length - N := List.length_drop
          have hdne : a.drop N ≠ [] := List.ne_nil_of_length_pos (by omega)
          have hsp := List.take_append_drop N a
          generalize a.take N = f at *
          generalize a.drop N = q at *
          subst hsp
          by_cases hc : f.getLast? = some CR
          · obtain ⟨g, rfl⟩ := List.getLast?_eq_some_iff.1 hc
            rw [List.length_append] at hf
            rw [List.append_assoc]
            rcases ih (CR :: q).length (by simp at hf ⊢; omega) (CR :: q) (by simp) rfl with ⟨k, e, h4, h5⟩ | h4
            · exact .inl ⟨k, e, .cutCR (by simpa using hf) hdne h4, h5⟩
            · exact .inr (.cutCR (by simpa using hf) hdne h4)
          · rcases ih q.length (by simp; omega) q hdne rfl with ⟨k, e, h4, h5⟩ | h4
            · exact .inl ⟨k, e, .cut hf hc h4, h5⟩
            · exact .inr (.cut hf hc h4)

/-- With a line shorter than the buffer, the line end is CR LF. -/
theorem lapse_commit (F : FailsOnce ρ inv pending fin inv' pending' y eager) (r : ρ) (hr : inv r) (size : Nat)
    (room : Nat → Nat) (d u a : Bytes) (hp : pending r = b!"commit " ++ d ++ NUL :: (u ++ a)) (hd : NUL ∉ d)
    (hu : u = [] ∨ u.getLast? = some LF) (ha : LF ∉ a) (hne : a ≠ []) (hl : a.length + 1 < size) :
    let A := parseObject (newReader r size room)
    let B := parseObject (σ := Stream) ⟨b!"commit " ++ d ++ NUL :: (u ++ (a ++ CR :: LF :: y)), .eof, size⟩
    (A = B ∧ ∀ c, B = .ok (.commit c) → c.message.length ≤ y.length) ∨
      (A = .err fin ∧ ∃ c, B = .ok (.commit c) ∧ y.length < c.message.length) := by
  have := List.length_pos_iff.2 hne
  have := lapse_commit_any F r hr size room d u a a [CR, LF] hp hd hu ha (by omega) (.rest hne (by omega))
    (.inr ⟨rfl, hl⟩)
  simpa only [List.cons_append, List.nil_append] using this

theorem lapse_tag (F : FailsOnce ρ inv pending fin inv' pending' y eager) (r : ρ) (hr : inv r) (size : Nat)
    (room : Nat → Nat) (d u a : Bytes) (hp : pending r = b!"tag " ++ d ++ NUL :: (u ++ a)) (hd : NUL ∉ d)
    (hu : u = [] ∨ u.getLast? = some LF) (ha : LF ∉ a) (hne : a ≠ []) (hl : a.length + 1 < size) :
    let A := parseObject (newReader r size room)
    let B := parseObject (σ := Stream) ⟨b!"tag " ++ d ++ NUL :: (u ++ (a ++ CR :: LF :: y)), .eof, size⟩
    (A = B ∧ ∀ t, B = .ok (.tag t) → t.message.length ≤ y.length) ∨
      (A = .err fin ∧ ∃ t, B = .ok (.tag t) ∧ y.length < t.message.length) := by
  have := List.length_pos_iff.2 hne
  have := lapse_tag_any F r hr size room d u a a [CR, LF] hp hd hu ha (by omega) (.rest hne (by omega))
    (.inr ⟨rfl, hl⟩)
  simpa only [List.cons_append, List.nil_append] using this

/-- A failure between two lines is not overlooked: the outcome is that of a reader that
stops there, which is an error. -/
theorem lapse_between_lines {after : ρ → Prop} {n : Nat} (D : Lapses ρ inv pending fin after n) (hfin : fin ≠ .eof)
    (r : ρ) (hr : inv r) (size : Nat) (hs : 2 ≤ size) (room : Nat → Nat) (w d u : Bytes)
    (hw : w = b!"commit " ∨ w = b!"tag ") (hp : pending r = w ++ d ++ NUL :: u) (hd : NUL ∉ d)
    (hu : u = [] ∨ u.getLast? = some LF) :
    parseObject (newReader r size room) = parseObject (σ := Stream) ⟨pending r, fin, size⟩ ∧
      ∀ o, parseObject (newReader r size room) ≠ .ok o := by
  have m0 := pre_new (fin := fin) (after := after) (pending := pending) hr (size := size) (by omega) room
  suffices h : parseObject (newReader r size room) = parseObject (σ := Stream) ⟨pending r, fin, size⟩ by
    refine ⟨h, fun o ho => ?_⟩
    rw [h] at ho
    obtain ⟨d', content, rest, -, h2, -⟩ := read_failure _ (by exact hs) o hfin ho
    rw [hp] at h2
    have := congrArg List.head? h2
    rcases hw with rfl | rfl <;> simp at this
  rcases hw with rfl | rfl
  · have e1 : ∀ z, b!"commit " ++ d ++ NUL :: z = b!"commit" ++ SP :: (d ++ NUL :: z) := by
      intro z; simp
    rw [hp] at m0
    obtain ⟨b, hsz, m, hA⟩ := pre_commit D _ d u m0 hd
    have hsz : b.size = size := hsz
    rw [hA, hp, e1, parse_commit]
    unfold decodeCommit
    rw [readNum_delim _ _ _ _ hd]
    cases ha : atoi d with
    | err e' => rfl
    | panic => rfl
    | ok z =>
      have := ls_commitLoop (stop_sim D hfin) (Reader.left b + 1) (u.length + 1) Commit.zero Commit.zero b
        ⟨u, fin, size⟩ ⟨by omega, u, m, hu, by rw [hsz]⟩ ⟨[], rfl, rfl⟩ (Nat.lt_succ_self _) (Nat.lt_succ_self _)
      simp only [Res.bind_ok]
      show _ = (commitLoop (σ := Stream) (u.length + 1) Commit.zero ⟨u, fin, size⟩ >>= fun c => Res.ok (Obj.commit c))
      generalize commitLoop (Reader.left b + 1) Commit.zero b = X at this
      generalize commitLoop (σ := Stream) (u.length + 1) Commit.zero ⟨u, fin, size⟩ = Y at this
      cases this with
      | ok h => obtain ⟨_, rfl, h⟩ := h; subst h; rfl
      | err e => rfl
      | panic => rfl
  · have e1 : ∀ z, b!"tag " ++ d ++ NUL :: z = b!"tag" ++ SP :: (d ++ NUL :: z) := by
      intro z; simp
    rw [hp] at m0
    obtain ⟨b, hsz, m, hA⟩ := pre_tag D _ d u m0 hd
    have hsz : b.size = size := hsz
    rw [hA, hp, e1, parse_tag]
    unfold decodeTag
    simp only [reader_readString, Stream.readString_delim _ _ _ _ _ hd, Res.bind_ok]
    have := ls_tagLoop (stop_sim D hfin) (Reader.left b + 1) (u.length + 1) Tag.zero Tag.zero b
      ⟨u, fin, size⟩ ⟨by omega, u, m, hu, by rw [hsz]⟩ ⟨[], rfl, rfl⟩ (Nat.lt_succ_self _) (Nat.lt_succ_self _)
    show _ = (tagLoop (σ := Stream) (u.length + 1) Tag.zero ⟨u, fin, size⟩ >>= fun c => Res.ok (Obj.tag c))
    generalize tagLoop (Reader.left b + 1) Tag.zero b = X at this
    generalize tagLoop (σ := Stream) (u.length + 1) Tag.zero ⟨u, fin, size⟩ = Y at this
    cases this with
    | ok h => obtain ⟨_, rfl, h⟩ := h; subst h; rfl
    | err e => rfl
    | panic => rfl

/-- A failure inside the header is reported. -/
theorem lapse_in_header {after : ρ → Prop} {n : Nat} (D : Lapses ρ inv pending fin after n) (hfin : fin ≠ .eof)
    (r : ρ) (hr : inv r) (size : Nat) (hs : 0 < size) (room : Nat → Nat) :
    (SP ∉ pending r → parseObject (newReader r size room) = .err fin) ∧
    (∀ w d, w ∈ [b!"tree", b!"commit", b!"blob", b!"tag"] → pending r = w ++ SP :: d → NUL ∉ d →
      parseObject (newReader r size room) = .err fin) := by
  have m0 := pre_new (fin := fin) (after := after) (pending := pending) hr (size := size) hs room
  constructor
  · intro h
    unfold parseObject readType
    rw [pre_no_delim D SP _ _ m0 h]
    cases fin <;> first | rfl | exact absurd rfl hfin
  · intro w d hw hp hd
    rw [hp] at m0
    obtain ⟨b, h1, h2, m⟩ := pre_delim D SP _ w d m0 (by
      simp only [List.mem_cons, List.not_mem_nil, or_false] at hw
      rcases hw with rfl | rfl | rfl | rfl <;> decide)
    have h3 := pre_no_delim D NUL b d m hd
    unfold parseObject readType
    rw [h1]
    simp only [Res.bind_ok, chop_concat]
    unfold decodeTree decodeCommit decodeBlob decodeTag readNum
    rw [h3]
    simp only [List.mem_cons, List.not_mem_nil, or_false] at hw
    rcases hw with rfl | rfl | rfl | rfl <;> rfl

end

/-- Chunks without errors and none of them empty. -/
def Plain (cs : List (Bytes × Option Err)) : Prop := ∀ x ∈ cs, x.2 = none ∧ x.1 ≠ []

theorem plain_idle {cs : List (Bytes × Option Err)} (h : Plain cs) : Script.empties (cs.map (·.1)) = 0 := by
  cases cs with
  | nil => rfl
  | cons x cs =>
    obtain ⟨c, e⟩ := x
    have := (h (c, e) (by simp)).2
    cases c with
    | nil => exact absurd rfl this
    | cons _ _ => rfl

theorem flaky_delivers : Delivers Flaky (fun s => Plain s.chunks) (fun s => (s.chunks.map (·.1)).flatten) .eof
    False where
  stays k s hk h := by
    simp only [Source.read, Flaky.read]
    split
    · exact h
    · rename_i c e cs hc
      rw [hc] at h
      split
      · exact fun x hx => h x (by simp [hx])
      · intro x hx
        rcases List.mem_cons.1 hx with rfl | hx
        · refine ⟨(h (c, e) (by simp)).1, fun hd => ?_⟩
          have := congrArg List.length hd
          simp at this
          omega
        · exact h x (by simp [hx])
  size k s hk h := by
    simp only [Source.read, Flaky.read]
    split
    · simp
    · split
      · assumption
      · simp; omega
  data k s hk h := by
    simp only [Source.read, Flaky.read]
    split
    · simp
    · rename_i c e cs hc
      split
      · simp [hc]
      · simp only [hc, List.map_cons, List.flatten_cons]
        rw [← List.append_assoc, List.take_append_drop]
  err k s x hk h hx := by
    revert hx
    simp only [Source.read, Flaky.read]
    split
    · rename_i hc
      intro hx
      simp only [Option.some.injEq] at hx
      exact ⟨hx.symm, by simp [hc]⟩
    · rename_i c e cs hc
      have := (h (c, e) (by rw [hc]; simp)).1
      simp only at this
      subst this
      split
      · intro hx; simp at hx
      · intro hx; simp at hx
  together k s x hk h hx := by
    revert hx
    simp only [Source.read, Flaky.read]
    split
    · intro hx hd; simp at hd
    · rename_i c e cs hc
      have := (h (c, e) (by rw [hc]; simp)).1
      simp only at this
      subst this
      split
      · intro hx; simp at hx
      · intro hx; simp at hx
  progress k s hk h hx hd := by
    revert hx hd
    simp only [Source.read, Flaky.read]
    split
    · intro hx; simp at hx
    · rename_i c e cs hc
      have := (h (c, e) (by rw [hc]; simp)).2
      split
      · intro _ hd; exact absurd hd this
      · intro _ hd
        have hp := List.length_pos_iff.2 this
        have := congrArg List.length hd
        simp only [List.length_take, List.length_nil] at this
        omega
  idle s h := by
    show Script.empties (s.chunks.map (·.1)) < 100
    rw [plain_idle h]; omega
  left s h := rfl

/-- Lists of chunks with one error are such readers. -/
theorem flaky_failsOnce (fin : Err) (hfin : fin ≠ .eof) (post : List (Bytes × Option Err)) (hpost : Plain post) :
    FailsOnce Flaky (fun s => ∃ pre c, s.chunks = pre ++ (c, some fin) :: post ∧ Plain pre)
      (fun s => Flaky.before s.chunks) fin (fun s => Plain s.chunks) (fun s => (s.chunks.map (·.1)).flatten)
      (post.map (·.1)).flatten False where
  noEof := hfin
  noCR h := h.elim
  later := flaky_delivers
  before :=
    { stays := by
        rintro k ⟨chunks⟩ hk ⟨pre, c, hc, hpre⟩ he
        simp only at hc
        subst hc
        cases pre with
        | nil =>
          simp only [Source.read, Flaky.read, List.nil_append] at he ⊢
          split at he
          · simp at he
          · rename_i hk'
            rw [if_neg hk']
            exact ⟨⟨[], _, rfl, by simp [Plain]⟩, by simp [Flaky.before]⟩
        | cons x pre =>
          obtain ⟨c', e'⟩ := x
          have h0 := hpre (c', e') (by simp)
          simp only at h0
          obtain ⟨rfl, h0⟩ := h0
          simp only [Source.read, Flaky.read, List.cons_append] at he ⊢
          split
          · exact ⟨⟨pre, c, rfl, fun x hx => hpre x (by simp [hx])⟩, rfl⟩
          · refine ⟨⟨(c'.drop k, none) :: pre, c, rfl, ?_⟩, ?_⟩
            · intro x hx
              rcases List.mem_cons.1 hx with rfl | hx
              · refine ⟨rfl, fun hd => ?_⟩
                have := congrArg List.length hd
                simp at this
                omega
              · exact hpre x (by simp [hx])
            · simp only [Flaky.before]
              rw [← List.append_assoc, List.take_append_drop]
      size := by
        intro k s hk h
        simp only [Source.read, Flaky.read]
        split
        · simp
        · split
          · assumption
          · simp; omega
      error := by
        rintro k ⟨chunks⟩ x hk ⟨pre, c, hc, hpre⟩ he
        simp only at hc
        subst hc
        cases pre with
        | nil =>
          simp only [Source.read, Flaky.read, List.nil_append] at he ⊢
          split at he
          · rename_i hk'
            rw [if_pos hk']
            simp only [Option.some.injEq] at he
            exact ⟨he.symm, rfl, hpost, rfl⟩
          · simp at he
        | cons x' pre =>
          obtain ⟨c', e'⟩ := x'
          have h0 := hpre (c', e') (by simp)
          simp only at h0
          obtain ⟨rfl, h0⟩ := h0
          simp only [Source.read, Flaky.read, List.cons_append] at he
          split at he <;> simp at he
      progress := by
        rintro k ⟨chunks⟩ hk ⟨pre, c, hc, hpre⟩ he hd
        simp only at hc
        subst hc
        cases pre with
        | nil =>
          simp only [Source.read, Flaky.read, List.nil_append] at he hd
          split at he
          · simp at he
          · rename_i hk'
            rw [if_neg hk'] at hd
            have := congrArg List.length hd
            simp only [List.length_take, List.length_nil] at this
            omega
        | cons x' pre =>
          obtain ⟨c', e'⟩ := x'
          have h0 := hpre (c', e') (by simp)
          simp only at h0
          have hp := List.length_pos_iff.2 h0.2
          simp only [Source.read, Flaky.read, List.cons_append] at hd
          split at hd
          · exact absurd hd h0.2
          · have := congrArg List.length hd
            simp only [List.length_take, List.length_nil] at this
            omega
      idle := by
        rintro ⟨chunks⟩ ⟨pre, c, hc, hpre⟩
        simp only at hc
        subst hc
        show Script.empties (List.map (·.1) (pre ++ (c, some fin) :: post)) < 100
        have hpi := plain_idle hpost
        cases pre with
        | nil =>
          cases c with
          | nil =>
            show Script.empties (post.map (·.1)) + 1 < 100
            omega
          | cons _ _ => show 0 < 100; omega
        | cons x pre =>
          obtain ⟨c', e'⟩ := x
          have h0 := (hpre (c', e') (by simp)).2
          cases c' with
          | nil => exact absurd rfl h0
          | cons _ _ => show 0 < 100; omega
      left := by
        rintro ⟨chunks⟩ ⟨pre, c, hc, hpre⟩
        simp only at hc
        subst hc
        show (List.map (·.1) (pre ++ (c, some fin) :: post)).flatten.length =
          (Flaky.before (pre ++ (c, some fin) :: post)).length + _
        clear hpost
        induction pre with
        | nil => simp [Flaky.before]
        | cons x pre ih =>
          obtain ⟨c', e'⟩ := x
          have h0 := hpre (c', e') (by simp)
          simp only at h0
          obtain ⟨rfl, h0⟩ := h0
          have := ih (fun x hx => hpre x (by simp [hx]))
          simp only [List.cons_append, List.map_cons, List.flatten_cons, List.length_append, Flaky.before] at this ⊢
          omega
      rest := by
        rintro s ⟨h1, h2⟩
        refine ⟨?_, ?_⟩
        · show (s.chunks.map (·.1)).flatten.length = _
          rw [h2]
        · show Script.empties (s.chunks.map (·.1)) < 100
          rw [plain_idle h1]; omega }

/-- On the brink it matters whether the error comes with the last bytes or after them: in
the first case it is lost, in the second it is reported. -/
theorem lapse_brink :
    parseObject (newReader (⟨[(b!"commit 0\x00abcdefghijklmnop", some (.io 7)), (b!"uvw\n", none)]⟩ : Flaky) 16
      (fun _ => 511)) = .ok (.commit { noCommit with other := [b!"abcdefghijklmnop", b!"uvw"] }) ∧
    parseObject (newReader (⟨[(b!"commit 0\x00abcdefghijklmnop", none), ([], some (.io 7)), (b!"uvw\n", none)]⟩ : Flaky)
      16 (fun _ => 511)) = .err (.io 7) := by
  constructor <;> rfl
/-- The encoding header of a commit is torn apart by a failing read: it becomes two
unknown headers. -/
example : parseObject (newReader (⟨[(b!"commit 0\x00enc", some (.io 7)), (b!"oding x\n", none)]⟩ : Flaky) 4096
    (fun _ => 511)) = .ok (.commit { noCommit with other := [b!"enc", b!"oding x"] }) := by
  have hB : parseObject (σ := Stream) ⟨b!"commit " ++ b!"0" ++ NUL :: ([] ++ (b!"enc" ++ CR :: LF :: b!"oding x\n")),
      .eof, 4096⟩ = .ok (.commit { noCommit with other := [b!"enc", b!"oding x"] }) := by rfl
  rcases lapse_commit (flaky_failsOnce (.io 7) (by simp) [(b!"oding x\n", none)] (by simp [Plain]))
    ⟨[(b!"commit 0\x00enc", some (.io 7)), (b!"oding x\n", none)]⟩
    ⟨[], b!"commit 0\x00enc", rfl, by simp [Plain]⟩ 4096 (fun _ => 511) b!"0" [] b!"enc" rfl (by decide) (.inl rfl)
    (by decide) (by decide) (by decide) with ⟨h, -⟩ | ⟨-, c, h, h2⟩
  · exact h.trans hB
  · cases h.symm.trans hB
    exact absurd h2 (by decide)

/-- A torn line of 20 bytes and a buffer of 16: the failure makes a third header of it. -/
example : parseObject (newReader (⟨[(b!"commit 0\x00abcdefghijklmnopqrst", some (.io 7)), (b!"uvw\n", none)]⟩ : Flaky) 16
    (fun _ => 511)) = .ok (.commit { noCommit with other := [b!"abcdefghijklmnop", b!"qrst", b!"uvw"] }) := by
  have hB : parseObject (σ := Stream) ⟨b!"commit " ++ b!"0" ++ NUL :: ([] ++ (b!"abcdefghijklmnopqrst" ++
      (b!"\n" ++ b!"uvw\n"))), .eof, 16⟩ =
      .ok (.commit { noCommit with other := [b!"abcdefghijklmnop", b!"qrst", b!"uvw"] }) := by rfl
  rcases lapse_commit_any (flaky_failsOnce (.io 7) (by simp) [(b!"uvw\n", none)] (by simp [Plain]))
    ⟨[(b!"commit 0\x00abcdefghijklmnopqrst", some (.io 7)), (b!"uvw\n", none)]⟩
    ⟨[], b!"commit 0\x00abcdefghijklmnopqrst", rfl, by simp [Plain]⟩ 16 (fun _ => 511) b!"0" []
    b!"abcdefghijklmnopqrst" b!"qrst" b!"\n" rfl (by decide) (.inl rfl) (by decide) (by decide)
    (.cut (f := b!"abcdefghijklmnop") (a := b!"qrst") (by decide) (by decide) (.rest (by decide) (by decide)))
    (.inl ⟨rfl, by decide⟩) with ⟨h, -⟩ | ⟨-, c, h, h2⟩
  · exact h.trans hB
  · cases h.symm.trans hB
    exact absurd h2 (by decide)

/-- A failure in the message is reported, although the reader goes on. -/
example : parseObject (newReader (⟨[(b!"commit 0\x00\nhel", some (.io 7)), (b!"lo\n", none)]⟩ : Flaky) 4096
    (fun _ => 511)) = .err (.io 7) := by
  have hB : parseObject (σ := Stream) ⟨b!"commit " ++ b!"0" ++ NUL :: (b!"\n" ++ (b!"hel" ++ CR :: LF :: b!"lo\n")),
      .eof, 4096⟩ = .ok (.commit { noCommit with message := b!"hel\r\nlo\n" }) := by rfl
  rcases lapse_commit (flaky_failsOnce (.io 7) (by simp) [(b!"lo\n", none)] (by simp [Plain]))
    ⟨[(b!"commit 0\x00\nhel", some (.io 7)), (b!"lo\n", none)]⟩
    ⟨[], b!"commit 0\x00\nhel", rfl, by simp [Plain]⟩ 4096 (fun _ => 511) b!"0" b!"\n" b!"hel" rfl (by decide)
    (.inr rfl) (by decide) (by decide) (by decide) with ⟨h, h2⟩ | ⟨h, -⟩
  · exact absurd (h2 _ hB) (by decide)
  · exact h

/-- A tag whose name is cut short by a failing read: the rest of it is ignored. -/
example : parseObject (newReader (⟨[(b!"tag 0\x00tag v1", some (.io 7)), (b!".2\n\nm", none)]⟩ : Flaky) 4096
    (fun _ => 511)) = .ok (.tag { noTag with tag := b!"v1", message := b!"m" }) := by
  have hB : parseObject (σ := Stream) ⟨b!"tag " ++ b!"0" ++ NUL :: ([] ++ (b!"tag v1" ++ CR :: LF :: b!".2\n\nm")),
      .eof, 4096⟩ = .ok (.tag { noTag with tag := b!"v1", message := b!"m" }) := by rfl
  rcases lapse_tag (flaky_failsOnce (.io 7) (by simp) [(b!".2\n\nm", none)] (by simp [Plain]))
    ⟨[(b!"tag 0\x00tag v1", some (.io 7)), (b!".2\n\nm", none)]⟩
    ⟨[], b!"tag 0\x00tag v1", rfl, by simp [Plain]⟩ 4096 (fun _ => 511) b!"0" [] b!"tag v1" rfl (by decide)
    (.inl rfl) (by decide) (by decide) (by decide) with ⟨h, -⟩ | ⟨-, c, h, h2⟩
  · exact h.trans hB
  · cases h.symm.trans hB
    exact absurd h2 (by decide)

/-- A failure between two lines is reported. -/
example (o : Obj) : parseObject (newReader (⟨[(b!"commit 0\x00abc\n", some (.io 7)), (b!"def\n", none)]⟩ : Flaky) 4096
    (fun _ => 511)) ≠ .ok o :=
  (lapse_between_lines (flaky_failsOnce (.io 7) (by simp) [(b!"def\n", none)] (by simp [Plain])).before (by simp)
    ⟨[(b!"commit 0\x00abc\n", some (.io 7)), (b!"def\n", none)]⟩ ⟨[], b!"commit 0\x00abc\n", rfl, by simp [Plain]⟩
    4096 (by decide) (fun _ => 511) b!"commit " b!"0" b!"abc\n" (.inl rfl) rfl (by decide) (.inr rfl)).2 o

/-- A failure in the size of a commit is reported. -/
example : parseObject (newReader (⟨[(b!"commit 1", some (.io 7)), (b!"2\x00def\n", none)]⟩ : Flaky) 4096
    (fun _ => 511)) = .err (.io 7) :=
  (lapse_in_header (flaky_failsOnce (.io 7) (by simp) [(b!"2\x00def\n", none)] (by simp [Plain])).before (by simp)
    ⟨[(b!"commit 1", some (.io 7)), (b!"2\x00def\n", none)]⟩ ⟨[], b!"commit 1", rfl, by simp [Plain]⟩
    4096 (by decide) (fun _ => 511)).2 b!"commit" b!"1" (by simp) rfl (by decide)

end Verif.Props
