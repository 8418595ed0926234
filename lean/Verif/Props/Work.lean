import Verif.Proofs.WorkBound
import Verif.Proofs.Fold
import Verif.Proofs.Person

/-!
# C105: the work of decoding
-/

namespace Verif.Props

open Verif Spec

/-! ## Go's arrays -/

theorem quarterSteps_enough (need n c : Nat) (h : need ≤ c + n) :
    need ≤ quarterSteps need n c ∧ c ≤ quarterSteps need n c := by
  induction n generalizing c with
  | zero => exact ⟨by simpa [quarterSteps] using h, Nat.le_refl _⟩
  | succ n ih =>
    unfold quarterSteps
    split
    · omega
    · have := ih (c + (c + 3 * 256) / 4) (by omega)
      omega

/-- The arrays of Go's runtime grow by a quarter at least. -/
theorem goGrow_grows (roundUp : Nat → Nat) (h : ∀ n, n ≤ roundUp n) : Grows (goGrow roundUp) := by
  intro cap need hlt
  unfold goGrow
  refine ⟨Nat.le_trans ?_ (h _), Nat.le_trans ?_ (Nat.mul_le_mul_left 4 (h _))⟩
  · split
    · omega
    · split
      · omega
      · exact (quarterSteps_enough need need _ (by omega)).1
  · split
    · omega
    · split
      · omega
      · have := (quarterSteps_enough need need (cap + (cap + 3 * 256) / 4) (by omega)).2
        omega

example : goGrow id 0 1 = 1 ∧ goGrow id 4 5 = 8 ∧ goGrow id 512 513 = 832 := by decide +kernel

/-! ## upper bounds -/

/-- Counting changes nothing. -/
theorem work_result {σ : Type} [Reader σ] (grow : Nat → Nat → Nat) (s : σ) :
    (parseObjectW grow s).res = parseObject s := parseObjectW_res grow s

theorem readType_costs (s : Stream) (X : Nat) :
    Costs (typeW s) (s.rest.length + 1 + X) (fun p => p.2.rest.length + 1 + X)
      (fun p => s.rest = p.1 ++ SP :: p.2.rest ∧ Stream.Sub p.2 s) := by
  unfold typeW readType
  simp only [reader_readString, reader_left]
  cases hr : Stream.readString SP s with
  | err e => cases e <;> exact costs_fails (by simp only; omega) (by simp)
  | panic => exact costs_fails (by simp only; omega) (by simp)
  | ok p =>
    obtain ⟨a, h1, _, h2, _, h3⟩ := Stream.readString_ok SP s p.2 p.1 hr
    have h4 := (Stream.readString_lt SP s p.2 p.1 hr).toSub
    simp only [h1, chop_concat, Res.bind_ok]
    have h5 : s.rest.length = a.length + 1 + p.2.rest.length := by rw [h2]; simp; omega
    refine costs_spend (by omega) fun b hb => ?_
    rw [← Res.ok.inj hb]
    exact ⟨by simp only; omega, h2, h4⟩

theorem purse_mono {C : Nat} {s s' : Stream} {k : Nat} (h : s'.rest.length + k ≤ s.rest.length) :
    purse C s' + 2 * k ≤ purse C s := by
  unfold purse
  have h1 := Nat.mul_le_mul_left (C + 1) h
  rw [Nat.mul_add] at h1
  have h2 : 1 * k ≤ (C + 1) * k := Nat.mul_le_mul_right _ (by omega)
  omega

theorem commit_cost {grow : Nat → Nat → Nat} (hg : Grows grow) {M : Nat} (s : Stream) (hS : Short M s) :
    (decodeCommitW grow s).cost ≤ purse (M + 16) s + 1 := by
  have : Costs (decodeCommitW grow s) (purse (M + 16) s + 1) (fun _ => 0) (fun _ => True) := by
    have hp := purse_ge (C := M + 16) s
    unfold decodeCommitW
    refine Costs.bind ((readNum_costs s).weaken (f' := fun p => purse (M + 16) p.2 + 1)
      (Q' := fun p => Stream.Sub p.2 s) (by omega) ?_ ?_) fun p _ hp => ?_
    · intro a ha _
      rw [readNumW_res] at ha
      have h1 := (readNum_lt s _ _ ha).le
      have h2 := purse_mono (C := M + 16) (s := s) (s' := a.2) (k := s.rest.length - a.2.rest.length)
        (by omega)
      omega
    · intro a ha _
      rw [readNumW_res] at ha
      exact (readNum_lt s _ _ ha).toSub
    · refine .of_cost ?_
      have := commitLoop_costs hg (M + 16) (Reader.left p.2 + 1) Commit.zero ⟨0, 0, 0⟩ p.2 (hS.sub hp)
        (Nat.le_refl _) ⟨by simp [Commit.zero], by simp [Commit.zero], by simp [Commit.zero]⟩
      simpa [roomSlack, slack, Commit.zero] using this
  exact this.1

theorem tag_cost {grow : Nat → Nat → Nat} (hg : Grows grow) {M : Nat} (s : Stream) (hS : Short M s) :
    (decodeTagW grow s).cost ≤ purse (M + 16) s + 1 := by
  have : Costs (decodeTagW grow s) (purse (M + 16) s + 1) (fun _ => 0) (fun _ => True) := by
    have hp := purse_ge (C := M + 16) s
    unfold decodeTagW
    refine Costs.bind ((string_costs NUL s 0).weaken (f' := fun p => purse (M + 16) p.2 + 1)
      (Q' := fun p => Stream.Sub p.2 s) (by omega) ?_ ?_) fun p _ hp => ?_
    · intro a ha h
      have h2 := purse_mono (C := M + 16) (s := s) (s' := a.2) (k := a.1.length) (by omega)
      omega
    · intro a ha _
      exact (Stream.readString_lt NUL s _ _ ha).toSub
    · exact .of_cost (tagLoop_costs hg (M + 16) _ _ p.2 (hS.sub hp) (Nat.le_refl _))
  exact this.1

/-- The work is at most proportional to the length of the input, with a factor that grows
with the longest line, or with the buffer if that is smaller. -/
theorem work_lines {grow : Nat → Nat → Nat} (hg : Grows grow) (b : Bytes) (fin : Err) (N M : Nat)
    (hN : 2 ≤ N) (hM : N ≤ M ∨ ∀ w, w <:+: b → LF ∉ w → w.length ≤ M) :
    (parseObjectW grow (⟨b, fin, N⟩ : Stream)).cost ≤ 2 * (M + 17) * b.length + 26 := by
  have hS : Short M ⟨b, fin, N⟩ := ⟨hN, hM⟩
  have hp := purse_ge (C := M + 16) (⟨b, fin, N⟩ : Stream)
  have he : 2 * (M + 17) * b.length = purse (M + 16) ⟨b, fin, N⟩ := by
    unfold purse; rw [Nat.mul_assoc]
  rw [he]
  have : Costs (parseObjectW grow (⟨b, fin, N⟩ : Stream)) (purse (M + 16) ⟨b, fin, N⟩ + 26)
      (fun _ => 0) (fun _ => True) := by
    unfold parseObjectW
    refine Costs.bind ((readType_costs ⟨b, fin, N⟩ 0).weaken (f' := fun p => purse (M + 16) p.2 + 26)
      (by simp only at hp ⊢; omega) ?_ fun _ _ h => h) fun p _ hp => ?_
    · intro a _ h
      have h1 := congrArg List.length h.1
      simp only [List.length_append, List.length_cons] at h1
      have := purse_mono (C := M + 16) (s := ⟨b, fin, N⟩) (s' := a.2) (k := a.1.length + 1)
        (by simp only; omega)
      simp only at hp ⊢
      omega
    · have h1 := purse_ge (C := M + 16) p.2
      have h2 : 5 * p.2.rest.length ≤ purse (M + 16) p.2 := by
        unfold purse
        have := Nat.mul_le_mul_right p.2.rest.length (show 17 ≤ M + 16 + 1 by omega)
        omega
      have ok : ∀ {α : Type} (x : Work α) (g : α → Obj), x.cost ≤ purse (M + 16) p.2 + 26 →
          Costs (x.bind fun a => .lift (.ok (g a))) (purse (M + 16) p.2 + 26) (fun _ => 0)
            (fun _ => True) := by
        intro α x g hx
        exact Costs.bind (.of_cost hx) fun a _ _ => costs_ok (Nat.le_refl _) trivial
      split
      · exact ok _ _ (by have := tree_costs hg p.2; omega)
      · split
        · exact ok _ _ (by have := commit_cost hg p.2 (hS.sub hp.2); omega)
        · split
          · exact ok _ _ (by have := blob_costs p.2; omega)
          · split
            · exact ok _ _ (by have := tag_cost hg p.2 (hS.sub hp.2); omega)
            · exact costs_lift fun a ha => by simp at ha
  exact this.1

/-- The work is at most proportional to the length of the input, for any buffer. -/
theorem work_linear {grow : Nat → Nat → Nat} (hg : Grows grow) (b : Bytes) (fin : Err) (N : Nat)
    (hN : 2 ≤ N) : (parseObjectW grow (⟨b, fin, N⟩ : Stream)).cost ≤ 2 * (N + 17) * b.length + 26 :=
  work_lines hg b fin N N hN (.inl (Nat.le_refl _))

theorem first_word (w b : Bytes) (p : Bytes × Stream) (h : b = p.1 ++ SP :: p.2.rest) (hw : SP ∉ w)
    (hp : SP ∉ p.1) (hb : w ++ [SP] <+: b) : p.1 = w := by
  obtain ⟨t, ht⟩ := hb
  rw [← ht, List.append_assoc] at h
  have h1 := splitAt_notin SP w t hw
  have h2 := splitAt_notin SP p.1 p.2.rest hp
  have : w ++ SP :: t = p.1 ++ SP :: p.2.rest := h
  rw [this, h2] at h1
  simp only [Option.some.injEq, Prod.mk.injEq] at h1
  exact h1.1

theorem readType_noSP (s : Stream) (p : Bytes × Stream) (h : readType s = .ok p) : SP ∉ p.1 := by
  unfold readType at h
  simp only [reader_readString] at h
  cases hr : Stream.readString SP s with
  | err e => rw [hr] at h; cases e <;> simp at h
  | panic => rw [hr] at h; simp at h
  | ok q =>
    obtain ⟨a, h1, h2, _⟩ := Stream.readString_ok SP s q.2 q.1 hr
    rw [hr] at h
    simp only [h1, chop_concat, Res.bind_ok, Res.ok.injEq] at h
    rw [← h]; exact h2

/-- Trees take work proportional to their length. -/
theorem work_tree {grow : Nat → Nat → Nat} (hg : Grows grow) (b : Bytes) (fin : Err) (N : Nat)
    (hb : b!"tree " <+: b) : (parseObjectW grow (⟨b, fin, N⟩ : Stream)).cost ≤ 5 * b.length + 1 := by
  have : Costs (parseObjectW grow (⟨b, fin, N⟩ : Stream)) (5 * b.length + 1) (fun _ => 0)
      (fun _ => True) := by
    unfold parseObjectW
    refine Costs.bind ((readType_costs ⟨b, fin, N⟩ (4 * b.length)).weaken
      (f' := fun p => 5 * p.2.rest.length + 1) (by simp only; omega) ?_ fun _ _ h => h) fun p hp hq => ?_
    · intro a _ h
      have h1 := h.2.le
      simp only at h1 ⊢
      omega
    · have hw := first_word b!"tree" b p hq.1 (by decide) (readType_noSP _ _ hp) hb
      rw [if_pos hw]
      exact Costs.bind (.of_cost (tree_costs hg p.2)) fun a _ _ => costs_ok (Nat.le_refl _) trivial
  exact this.1

/-- Blobs take work proportional to their length. -/
theorem work_blob {grow : Nat → Nat → Nat} (b : Bytes) (fin : Err) (N : Nat)
    (hb : b!"blob " <+: b) : (parseObjectW grow (⟨b, fin, N⟩ : Stream)).cost ≤ 2 * b.length + 26 := by
  have : Costs (parseObjectW grow (⟨b, fin, N⟩ : Stream)) (2 * b.length + 26) (fun _ => 0)
      (fun _ => True) := by
    unfold parseObjectW
    refine Costs.bind ((readType_costs ⟨b, fin, N⟩ 0).weaken
      (f' := fun p => 2 * p.2.rest.length + 26) (by simp only; omega) ?_ fun _ _ h => h) fun p hp hq => ?_
    · intro a _ h
      have h1 := h.2.le
      simp only at h1 ⊢
      omega
    · have hw := first_word b!"blob" b p hq.1 (by decide) (readType_noSP _ _ hp) hb
      rw [if_neg (by rw [hw]; decide), if_neg (by rw [hw]; decide), if_pos hw]
      exact Costs.bind (.of_cost (blob_costs p.2)) fun a _ _ => costs_ok (Nat.le_refl _) trivial
  exact this.1

/-- A signature takes work proportional to its length, whatever the buffer. -/
theorem work_signature {grow : Nat → Nat → Nat} (hg : Grows grow) (s : Stream) (hN : 2 ≤ s.bufsz) :
    (decodeGpgSigW grow s).cost ≤ 24 * s.rest.length + 1 := by
  have := (gpgSig_costs hg 11 (Nat.le_refl _) s (M := s.bufsz) ⟨hN, .inl (Nat.le_refl _)⟩).1
  unfold purse at this
  omega

/-- So does the message of a merge tag. -/
theorem work_merge_message {grow : Nat → Nat → Nat} (hg : Grows grow) (f : Nat) (s : Stream)
    (hN : 2 ≤ s.bufsz) : (mergeMsgLoopW grow f [] 0 s).cost ≤ 24 * s.rest.length + 1 := by
  have := (mergeMsg_costs hg 11 (Nat.le_refl _) f [] 0 s (M := s.bufsz) ⟨hN, .inl (Nat.le_refl _)⟩
    (by simp)).1
  simp only [purse, slack, List.length_nil] at this
  omega

/-! ## the factor is needed -/

theorem bind_cost_ge {α β : Type} (x : Work α) (f : α → Work β) : x.cost ≤ (x.bind f).cost := by
  unfold Work.bind; split <;> simp

theorem bind_cost_ok {α β : Type} (x : Work α) (f : α → Work β) (a : α) (h : x.res = .ok a) :
    (x.bind f).cost = x.cost + (f a).cost := by
  unfold Work.bind; rw [h]

theorem lift_bind {α β : Type} (a : α) (f : α → Work β) : (Work.lift (.ok a)).bind f = f a := by
  simp [Work.bind, Work.lift]

/-- A tagger whose name has `m` words of one letter. -/
def longName (m : Nat) : Bytes := b!"tagger " ++ (List.replicate m b!"a ").flatten ++ b!"<>"

theorem longName_length (m : Nat) : (longName m).length = 2 * m + 9 := by
  simp [longName]; omega

theorem longName_split (m : Nat) :
    splitSp (longName m) = b!"tagger" :: (List.replicate m b!"a" ++ [b!"<>"]) := by
  have h : ∀ m, splitSp ((List.replicate m b!"a ").flatten ++ b!"<>") =
      List.replicate m b!"a" ++ [b!"<>"] := by
    intro m
    induction m with
    | zero => rfl
    | succ m ih =>
      have e : (List.replicate (m + 1) b!"a ").flatten ++ b!"<>" =
          b!"a" ++ SP :: ((List.replicate m b!"a ").flatten ++ b!"<>") := by
        simp [List.replicate_succ, SP]
      rw [e, splitSp_append, ih]
      rfl
  have e : longName m = b!"tagger" ++ SP :: ((List.replicate m b!"a ").flatten ++ b!"<>") := by
    simp [longName, SP]
  rw [e, splitSp_append, h]
  rfl

theorem longName_name (m : Nat) (n : Bytes) :
    (nameLoopW (List.replicate m b!"a" ++ [b!"<>"]) n).cost = m * n.length + m * (m + 1) ∧
      ∃ n', (nameLoopW (List.replicate m b!"a" ++ [b!"<>"]) n).res = .ok (n', [b!"<>"]) := by
  induction m generalizing n with
  | zero => exact ⟨by simp [nameLoopW, Work.bind, first, LT], n, by simp [nameLoopW, first, LT]⟩
  | succ m ih =>
    have e : nameLoopW (List.replicate (m + 1) b!"a" ++ [b!"<>"]) n =
        ((Work.spend (n.length + 2) (.ok (n ++ b!"a "))).bind fun x =>
          nameLoopW (List.replicate m b!"a" ++ [b!"<>"]) x) := by
      rw [List.replicate_succ, List.cons_append, nameLoopW, if_pos (by decide),
        show first b!"a" = .ok 97 from rfl, lift_bind, if_neg (by decide)]
      rfl
    obtain ⟨h1, h2⟩ := ih (n ++ b!"a ")
    refine ⟨?_, ?_⟩
    · rw [e, bind_cost_ok _ _ _ rfl, h1]
      simp only [Work.spend_cost, List.length_append, List.length_cons, List.length_nil]
      have e1 : (m + 1) * n.length = m * n.length + n.length := Nat.succ_mul _ _
      have e2 : (m + 1) * (m + 1 + 1) = m * (m + 1) + m * 1 + (m + 1 + 1) := by
        rw [Nat.succ_mul, Nat.mul_add m (m + 1) 1]
      have e3 : m * (n.length + 2) = m * n.length + m * 2 := Nat.mul_add _ _ _
      simp only [Nat.zero_add, Nat.reduceAdd]
      omega
    · rw [e, Work.bind_res]
      exact h2

/-- Reading this tagger takes work quadratic in its length. -/
theorem longName_cost (grow : Nat → Nat → Nat) (m : Nat) (hm : 1 ≤ m) :
    m * (m + 1) ≤ (parsePersonInfoW grow (longName m)).cost ∧
      ∃ p, (parsePersonInfoW grow (longName m)).res = .ok p := by
  have hl : ¬ (b!"tagger" :: (List.replicate m b!"a" ++ [b!"<>"])).length < 3 := by
    simp; omega
  obtain ⟨h1, n', h2⟩ := longName_name m []
  constructor
  · unfold parsePersonInfoW
    rw [bind_cost_ok _ _ _ rfl, longName_split, if_neg hl]
    have := bind_cost_ge (nameLoopW ((b!"tagger" :: (List.replicate m b!"a" ++ [b!"<>"])).drop 1) [])
      fun p =>
        (Work.lift (if p.1.length ≠ 0 then chop p.1 else .ok [])).bind fun name =>
          (emailLoopW grow p.2 [] 0).bind fun q =>
            .spend ((personRest name q.1 q.2).date.length + (personRest name q.1 q.2).timezone.length)
              (.ok (personRest name q.1 q.2))
    rw [show (b!"tagger" :: (List.replicate m b!"a" ++ [b!"<>"])).drop 1 =
      List.replicate m b!"a" ++ [b!"<>"] from rfl] at this ⊢
    simp only [List.length_nil, Nat.mul_zero, Nat.zero_add] at h1
    omega
  · rw [parsePersonInfoW_res]
    unfold parsePersonInfo
    rw [longName_split, if_neg hl]
    rw [nameLoopW_res] at h2
    rw [show (b!"tagger" :: (List.replicate m b!"a" ++ [b!"<>"])).drop 1 =
      List.replicate m b!"a" ++ [b!"<>"] from rfl, h2]
    simp only [Res.bind_ok]
    have : ∃ x, (if n'.length ≠ 0 then chop n' else .ok []) = .ok x := by
      split
      · rename_i h
        unfold chop
        split
        · rename_i h'; simp [h'] at h
        · exact ⟨_, rfl⟩
      · exact ⟨_, rfl⟩
    obtain ⟨x, hx⟩ := this
    rw [hx]
    exact ⟨_, rfl⟩

theorem longName_chars (m : Nat) : LF ∉ longName m ∧ (longName m).getLast? ≠ some CR := by
  constructor
  · unfold longName
    simp only [List.mem_append, List.mem_flatten, List.mem_replicate, not_or, not_exists, not_and]
    refine ⟨⟨by decide, ?_⟩, by decide⟩
    rintro x ⟨_, rfl⟩
    decide
  · unfold longName
    rw [List.getLast?_append, show (b!"<>").getLast? = some 62 from rfl, Option.some_or]
    decide

/-- A tag that consists of `k` such lines. -/
def longNames (m k : Nat) : Bytes := b!"tag 0\x00" ++ (List.replicate k (longName m ++ [LF])).flatten

theorem longNames_length (m k : Nat) : (longNames m k).length = 6 + k * (2 * m + 10) := by
  have e : 2 * m + 10 = 2 * m + 9 + 1 := rfl
  simp [longNames, longName_length]
  rw [e]
  omega

theorem longNames_loop (grow : Nat → Nat → Nat) (N m k : Nat) (hm : 1 ≤ m) (hN : 2 * m + 10 ≤ N)
    (f : Nat) (hf : k < f) (o : Tag) :
    k * (m * (m + 1)) ≤
        (tagLoopW grow f o (⟨(List.replicate k (longName m ++ [LF])).flatten, .eof, N⟩ : Stream)).cost ∧
      ∃ t, (tagLoopW grow f o (⟨(List.replicate k (longName m ++ [LF])).flatten, .eof, N⟩ : Stream)).res
        = .ok t := by
  induction k generalizing f o with
  | zero =>
    obtain ⟨f, rfl⟩ : ∃ g, f = g + 1 := ⟨f - 1, by omega⟩
    exact ⟨by simp, o, rfl⟩
  | succ k ih =>
    obtain ⟨f, rfl⟩ : ∃ g, f = g + 1 := ⟨f - 1, by omega⟩
    obtain ⟨h1, h2⟩ := longName_chars m
    have hr : Stream.readLine ⟨(List.replicate (k + 1) (longName m ++ [LF])).flatten, .eof, N⟩ =
        .ok (longName m, ⟨(List.replicate k (longName m ++ [LF])).flatten, .eof, N⟩) := by
      rw [List.replicate_succ, List.flatten_cons, List.append_assoc]
      exact Stream.readLine_line _ .eof ⟨h1, h2, by rw [longName_length]; omega⟩
    obtain ⟨hc, p, hp⟩ := longName_cost grow m hm
    have ht : tagLineW grow o (longName m)
        (⟨(List.replicate k (longName m ++ [LF])).flatten, .eof, N⟩ : Stream) =
        ((parsePersonInfoW grow (longName m)).bind fun p => .lift (.ok ({ o with tagger := p },
          (⟨(List.replicate k (longName m ++ [LF])).flatten, .eof, N⟩ : Stream)))) := by
      unfold tagLineW
      rw [if_neg (by simp [longName, hasPrefix]), if_neg (by simp [longName, hasPrefix]),
        if_pos (by simp [longName, hasPrefix])]
    obtain ⟨h3, t, h4⟩ := ih f (by omega) { o with tagger := p }
    unfold tagLoopW
    simp only [lineW_res, reader_readLine, hr, ht]
    constructor
    · rw [bind_cost_ok _ _ _ rfl, bind_cost_ok _ _ ({ o with tagger := p }, _) (by
        rw [Work.bind_res, hp]; rfl), bind_cost_ok _ _ p hp]
      rw [Nat.succ_mul]
      simp only at h3 ⊢
      omega
    · simp only [Work.bind_res, Work.spend_res, Res.bind_ok, hp, Work.lift_res]
      exact ⟨t, h4⟩

/-- The factor has to grow with the buffer: tags whose lines fill it take that much work
for each line, and are accepted. -/
theorem work_needs_buffer (grow : Nat → Nat → Nat) (N m k : Nat) (hm : 1 ≤ m) (hN : 2 * m + 10 ≤ N) :
    (longNames m k).length = 6 + k * (2 * m + 10) ∧
      k * (m * (m + 1)) ≤ (parseObjectW grow (⟨longNames m k, .eof, N⟩ : Stream)).cost ∧
      ∃ t, parseObject (⟨longNames m k, .eof, N⟩ : Stream) = .ok (.tag t) := by
  refine ⟨longNames_length m k, ?_⟩
  have h1 : readType (⟨longNames m k, .eof, N⟩ : Stream) = .ok (b!"tag",
      ⟨b!"0\x00" ++ (List.replicate k (longName m ++ [LF])).flatten, .eof, N⟩) := rfl
  have h2 : Stream.readString NUL
      (⟨b!"0\x00" ++ (List.replicate k (longName m ++ [LF])).flatten, .eof, N⟩ : Stream) =
      .ok (b!"0\x00", ⟨(List.replicate k (longName m ++ [LF])).flatten, .eof, N⟩) := rfl
  have hf : k < ((List.replicate k (longName m ++ [LF])).flatten).length + 1 := by
    have : k * 1 ≤ k * (2 * m + 9 + 1) := Nat.mul_le_mul_left _ (by omega)
    simp [longName_length] at this ⊢
    omega
  obtain ⟨h3, t, h4⟩ := longNames_loop grow N m k hm hN _ hf Tag.zero
  constructor
  · unfold parseObjectW
    rw [bind_cost_ok _ _ _ h1]
    simp only
    rw [if_neg (by decide), if_neg (by decide), if_neg (by decide), if_pos (by decide)]
    refine Nat.le_trans ?_ (Nat.le_trans (bind_cost_ge _ _) (Nat.le_add_left _ _))
    unfold decodeTagW
    rw [bind_cost_ok _ _ _ h2]
    exact Nat.le_trans h3 (Nat.le_add_left _ _)
  · refine ⟨t, ?_⟩
    rw [tagLoopW_res] at h4
    unfold parseObject
    rw [h1]
    simp only [Res.bind_ok]
    rw [if_neg (by decide), if_neg (by decide), if_neg (by decide), if_pos (by decide)]
    unfold decodeTag
    rw [reader_readString, h2]
    simp only [Res.bind_ok]
    rw [reader_left, h4]
    rfl

/-! ## examples -/

theorem infix_parts (w x y : Bytes) (h : w <:+: x ++ LF :: y) (hw : LF ∉ w) : w <:+: x ∨ w <:+: y := by
  obtain ⟨s, t, h⟩ := h
  rcases List.append_eq_append_iff.1 h with ⟨a, h1, _⟩ | ⟨c, h1, h2⟩
  · exact .inl ⟨s, a, h1.symm⟩
  · cases c with
    | nil => exact .inl ⟨s, [], by simpa using h1⟩
    | cons c cs =>
      simp only [List.cons_append, List.cons.injEq] at h2
      obtain ⟨rfl, h2⟩ := h2
      rcases List.append_eq_append_iff.1 h1 with ⟨a, h3, h4⟩ | ⟨a, h3, h4⟩
      · exact absurd (by rw [h4]; simp) hw
      · cases a with
        | nil =>
          simp only [List.nil_append] at h4
          exact absurd (by rw [← h4]; simp) hw
        | cons a as =>
          simp only [List.cons_append, List.cons.injEq] at h4
          exact .inr ⟨as, t, by rw [h2, h4.2]⟩

/-- Lines of at most `M` bytes. -/
theorem short_lines (M : Nat) (ls : List Bytes) (h : ∀ l ∈ ls, l.length ≤ M) (x : Bytes)
    (hx : x.length ≤ M) : ∀ w, w <:+: unlines ls ++ x → LF ∉ w → w.length ≤ M := by
  induction ls with
  | nil =>
    intro w hw _
    have := hw.length_le
    simp only [unlines, List.flatMap_nil, List.nil_append] at this
    omega
  | cons l ls ih =>
    intro w hw hlf
    have e : unlines (l :: ls) ++ x = l ++ LF :: (unlines ls ++ x) := by simp [unlines]
    rw [e] at hw
    rcases infix_parts _ _ _ hw hlf with hw | hw
    · have := hw.length_le
      have := h l (by simp)
      omega
    · exact ih (fun l hl => h l (by simp [hl])) w hw hlf

def shortLines : List Bytes :=
  [b!"commit 0\x00tree 4b825dc642cb6eb9a060e54bf8d69288fbee4904",
    b!"author A U Thor <author@example.com> 1112911993 -0700",
    b!"committer C O Mitter <c@example.com> 1112911993 -0700", b!"", b!"Initial import"]

/-- A commit with lines of at most 60 bytes, read with the usual buffer. -/
example : (parseObjectW (goGrow id) (⟨unlines shortLines, .eof, 4096⟩ : Stream)).cost ≤
    2 * (60 + 17) * 179 + 26 := by
  have h := short_lines 60 shortLines (by decide +kernel) [] (by simp)
  rw [List.append_nil] at h
  have := work_lines (goGrow_grows id fun _ => Nat.le_refl _) (unlines shortLines) .eof 4096 60 (by omega)
    (.inr h)
  rwa [show (unlines shortLines).length = 179 by decide +kernel] at this

/-- 30 words: 2 · 30 + 10 = 70 bytes for each tagger, 930 for its names alone. -/
example : 10 * 930 ≤ (parseObjectW (goGrow id) (⟨longNames 30 10, .eof, 4096⟩ : Stream)).cost ∧
    (parseObjectW (goGrow id) (⟨longNames 30 10, .eof, 4096⟩ : Stream)).cost ≤
      2 * (4096 + 17) * 706 + 26 := by
  have h := work_needs_buffer (goGrow id) 4096 30 10 (by omega) (by omega)
  refine ⟨h.2.1, ?_⟩
  have := work_linear (goGrow_grows id fun _ => Nat.le_refl _) (longNames 30 10) .eof 4096 (by omega)
  rwa [h.1] at this

example : (parseObjectW (goGrow id) (⟨b!"blob 5\x00hello", .eof, 4096⟩ : Stream)).cost = 20 := by
  decide +kernel

end Verif.Props
