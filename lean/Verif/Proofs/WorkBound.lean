import Verif.Spec.Work
import Verif.Proofs.Work
import Verif.Proofs.Clean

/-!
# Bounds on the work of the decoders

A budget is handed from step to step. Of what a line earns when it is read, `worth` is
left for the work that is done with it; `slack` is what an array has saved for its next
move.
-/

namespace Verif

open Spec

/-! ## budgets -/

/-- With budget `A`, `x` does not run out; if it succeeds, it leaves `f` of its result,
which has the property `Q`. -/
def Costs {α : Type} (x : Work α) (A : Nat) (f : α → Nat) (Q : α → Prop) : Prop :=
  x.cost ≤ A ∧ ∀ a, x.res = .ok a → x.cost + f a ≤ A ∧ Q a

theorem Costs.bind {α β : Type} {x : Work α} {g : α → Work β} {A : Nat} {f : α → Nat} {Q : α → Prop}
    {h : β → Nat} {R : β → Prop} (hx : Costs x A f Q)
    (hg : ∀ a, x.res = .ok a → Q a → Costs (g a) (f a) h R) : Costs (x.bind g) A h R := by
  unfold Work.bind
  split
  · rename_i a ha
    obtain ⟨h1, h2⟩ := hx.2 a ha
    obtain ⟨h3, h4⟩ := hg a ha h2
    refine ⟨?_, fun b hb => ?_⟩
    · show x.cost + (g a).cost ≤ A; omega
    · obtain ⟨h5, h6⟩ := h4 b hb
      refine ⟨?_, h6⟩
      show x.cost + (g a).cost + h b ≤ A; omega
  · exact ⟨hx.1, fun b hb => by simp at hb⟩
  · exact ⟨hx.1, fun b hb => by simp at hb⟩

theorem Costs.weaken {α : Type} {x : Work α} {A A' : Nat} {f f' : α → Nat} {Q Q' : α → Prop}
    (hx : Costs x A f Q) (hA : A ≤ A') (hf : ∀ a, x.res = .ok a → Q a → f' a ≤ f a + (A' - A))
    (hQ : ∀ a, x.res = .ok a → Q a → Q' a) : Costs x A' f' Q' := by
  refine ⟨Nat.le_trans hx.1 hA, fun a ha => ?_⟩
  obtain ⟨h1, h2⟩ := hx.2 a ha
  have := hf a ha h2
  exact ⟨by omega, hQ a ha h2⟩

theorem Costs.frame {α : Type} {x : Work α} {A : Nat} {f : α → Nat} {Q : α → Prop} (X : Nat)
    (hx : Costs x A f Q) : Costs x (A + X) (fun a => f a + X) Q :=
  hx.weaken (by omega) (fun a _ _ => by omega) (fun a _ h => h)

theorem costs_spend {α : Type} {n A : Nat} {r : Res α} {f : α → Nat} {Q : α → Prop} (hn : n ≤ A)
    (h : ∀ a, r = .ok a → n + f a ≤ A ∧ Q a) : Costs (.spend n r) A f Q := ⟨hn, h⟩

theorem costs_lift {α : Type} {A : Nat} {r : Res α} {f : α → Nat} {Q : α → Prop}
    (h : ∀ a, r = .ok a → f a ≤ A ∧ Q a) : Costs (.lift r) A f Q :=
  ⟨Nat.zero_le _, fun a ha => by simpa using h a ha⟩

theorem costs_ok {α : Type} {A : Nat} {a : α} {f : α → Nat} {Q : α → Prop} (h : f a ≤ A) (hq : Q a) :
    Costs (.lift (.ok a)) A f Q :=
  costs_lift fun b hb => by rw [← Res.ok.inj hb]; exact ⟨h, hq⟩

theorem costs_fails {α : Type} {A n : Nat} {r : Res α} {f : α → Nat} {Q : α → Prop} (hn : n ≤ A)
    (h : ∀ a, r ≠ .ok a) : Costs (.spend n r) A f Q := ⟨hn, fun a ha => absurd ha (h a)⟩

/-! ## arrays -/

/-- What an array has saved. -/
def slack (len cap : Nat) : Nat := 5 * len - 4 * cap

theorem push_costs {grow : Nat → Nat → Nat} (hg : Grows grow) (len cap k : Nat) (h : len ≤ cap) :
    Costs (pushW grow len cap k) (slack len cap + 10 * k) (fun c => slack (len + k) c)
      (fun c => len + k ≤ c) := by
  unfold pushW slack
  split
  · refine costs_spend (by omega) fun a ha => ?_
    rw [← Res.ok.inj ha]
    omega
  · have := hg cap (len + k) (by omega)
    refine costs_spend (by omega) fun a ha => ?_
    rw [← Res.ok.inj ha]
    omega

/-! ## reading -/

/-- What a stream will earn. -/
def purse (C : Nat) (s : Stream) : Nat := 2 * ((C + 1) * s.rest.length)

/-- What is left of the earnings of a line when it has been read. -/
def worth (C : Nat) (l : Bytes) : Nat := C * (l.length + 1)

theorem worth_ge {C n : Nat} (l : Bytes) (h : n ≤ C) : n * (l.length + 1) ≤ worth C l :=
  Nat.mul_le_mul_right _ h

theorem purse_ge {C : Nat} (s : Stream) : 2 * s.rest.length ≤ purse C s := by
  unfold purse
  have : 1 * s.rest.length ≤ (C + 1) * s.rest.length := Nat.mul_le_mul_right _ (by omega)
  omega

/-- Every line read from `s` has at most `M` bytes: the buffer is that small, or the
lines are that short. -/
def Short (M : Nat) (s : Stream) : Prop :=
  2 ≤ s.bufsz ∧ (s.bufsz ≤ M ∨ ∀ w, w <:+: s.rest → LF ∉ w → w.length ≤ M)

theorem readLine_half (s s' : Stream) (l : Bytes) (h : Stream.readLine s = .ok (l, s'))
    (hN : 2 ≤ s.bufsz) :
    l.length + 1 + 2 * s'.rest.length ≤ 2 * s.rest.length ∧ l.length ≤ s.bufsz ∧ s'.bufsz = s.bufsz := by
  have h0 := Stream.readLine_lt s s' l hN h
  have h1 := h0.lt
  have hl := readLine_Line s s' l h hN
  have hb := h0.bufsz
  generalize s.rest = a at hl h1
  generalize s'.rest = b at hl h1
  cases hl with
  | lf => simp only [List.length_append, List.length_cons]; omega
  | crlf => simp only [List.length_append, List.length_cons]; omega
  | last hne => simp only [List.length_nil] at *; omega
  | full _ _ h hc hs => simp only [List.length_append] at *; omega
  | fullCR _ _ h hs => simp only [List.length_append, List.length_cons] at *; omega

theorem Short.line {M : Nat} {s s' : Stream} {l : Bytes} (hs : Short M s)
    (h : Stream.readLine s = .ok (l, s')) : l.length ≤ M ∧ Short M s' := by
  have h0 := Stream.readLine_lt s s' l hs.1 h
  have h1 := readLine_half s s' l h hs.1
  refine ⟨?_, by rw [h0.bufsz]; exact hs.1, ?_⟩
  · rcases hs.2 with h2 | h2
    · omega
    · have hl := readLine_Line s s' l h hs.1
      generalize s.rest = a at hl h2
      generalize s'.rest = b at hl
      cases hl with
      | lf _ r h => exact h2 l ⟨[], LF :: b, by simp⟩ h
      | crlf _ r h => exact h2 l ⟨[], CR :: LF :: b, by simp⟩ h
      | last _ hne h => exact h2 _ (List.infix_refl _) h
      | full _ _ h hc hs => exact h2 l ⟨[], b, by simp⟩ h
      | fullCR _ r h hs => exact h2 l ⟨[], CR :: r, by simp⟩ h
  · rcases hs.2 with h2 | h2
    · exact .inl (by rw [h0.bufsz]; exact h2)
    · exact .inr fun w hw => h2 w (hw.trans h0.suf.isInfix)

theorem Short.sub {M : Nat} {s s' : Stream} (hs : Short M s) (h : Stream.Sub s' s) : Short M s' := by
  refine ⟨by rw [h.bufsz]; exact hs.1, ?_⟩
  rcases hs.2 with h2 | h2
  · exact .inl (by rw [h.bufsz]; exact h2)
  · exact .inr fun w hw => h2 w (hw.trans h.suf.isInfix)

theorem readLine_purse (C : Nat) (s s' : Stream) (l : Bytes) (h : Stream.readLine s = .ok (l, s'))
    (hN : 2 ≤ s.bufsz) : l.length + 1 + worth C l + purse C s' ≤ purse C s := by
  obtain ⟨h1, _⟩ := readLine_half s s' l h hN
  unfold purse worth
  have h2 := Nat.mul_le_mul_left (C + 1) h1
  have e1 : (C + 1) * (l.length + 1 + 2 * s'.rest.length) =
      C * (l.length + 1) + (l.length + 1) + 2 * ((C + 1) * s'.rest.length) := by
    rw [Nat.mul_add, Nat.succ_mul, Nat.mul_left_comm]
  have e2 : (C + 1) * (2 * s.rest.length) = 2 * ((C + 1) * s.rest.length) := Nat.mul_left_comm _ _ _
  omega

theorem line_costs {M : Nat} (C : Nat) (s : Stream) (hS : Short M s) :
    Costs (lineW s) (purse C s + 1) (fun p => worth C p.1 + purse C p.2 + 1)
      (fun p => p.1.length ≤ M ∧ Short M p.2) := by
  have hN := hS.1
  unfold lineW
  simp only [reader_readLine]
  cases hr : Stream.readLine s with
  | err e => exact costs_fails (by simp) (by simp)
  | panic => exact costs_fails (by simp) (by simp)
  | ok p =>
    have h1 := readLine_purse C s p.2 p.1 hr hN
    have h2 := hS.line hr
    refine costs_spend (by simp only; omega) fun a ha => ?_
    rw [← Res.ok.inj ha]
    simp only
    exact ⟨by omega, h2⟩

theorem lineW_err (s : Stream) (e : Err) (h : Stream.readLine s = .err e) : (lineW s).cost = 1 := by
  simp [lineW, h]

theorem lineW_panic (s : Stream) (h : Stream.readLine s = .panic) : (lineW s).cost = 1 := by
  simp [lineW, h]

theorem string_costs (d : UInt8) (s : Stream) (X : Nat) :
    Costs (stringW d s) (s.rest.length + 1 + X) (fun p => p.2.rest.length + 1 + X)
      (fun p => s.rest.length = p.1.length + p.2.rest.length ∧ 1 ≤ p.1.length ∧ p.2.bufsz = s.bufsz) := by
  unfold stringW
  simp only [reader_readString, reader_left]
  cases hr : Stream.readString d s with
  | err e => exact costs_fails (by simp) (by simp)
  | panic => exact costs_fails (by simp) (by simp)
  | ok p =>
    obtain ⟨a, h1, _, h2, _, h3⟩ := Stream.readString_ok d s p.2 p.1 hr
    have h4 : s.rest.length = p.1.length + p.2.rest.length := by rw [h1, h2]; simp; omega
    have h5 : 1 ≤ p.1.length := by rw [h1]; simp
    refine costs_spend (by simp only; omega) fun b hb => ?_
    rw [← Res.ok.inj hb]
    simp only
    exact ⟨by omega, h4, h5, h3⟩

theorem all_costs {M : Nat} (C : Nat) (s : Stream) (hS : Short M s) :
    Costs (allW s) (purse C s + 1) (fun p => purse C p.2) (fun p => Short M p.2) := by
  unfold allW
  simp only [reader_readAll, reader_left]
  have := purse_ge (C := C) s
  cases hr : Stream.readAll s with
  | err e => exact costs_fails (by simp only; omega) (by simp)
  | panic => exact costs_fails (by simp only; omega) (by simp)
  | ok p =>
    obtain ⟨_, h1, h2⟩ := Stream.readAll_ok s p.2 p.1 hr
    refine costs_spend (by simp only [h1]; omega) fun b hb => ?_
    rw [← Res.ok.inj hb]
    refine ⟨?_, hS.sub (Stream.readAll_sub s _ _ hr)⟩
    rw [h2]
    simp only [h1, purse, List.length_nil] at *
    omega

/-! ## links -/

theorem hexDecode_half (h b : Bytes) (hd : hexDecode h = .ok b) : h.length = 2 * b.length :=
  hexOf_length ((hexDecode_iff h b).1 hd)

theorem link_costs {β : Type} (h : Bytes) (g : Cid → Work β) (A : Nat) (f : β → Nat) (Q : β → Prop)
    (hg : ∀ c, Costs (g c) A f Q) :
    Costs ((hexW h).bind fun sha => (cidW sha).bind g) (3 * h.length + A) f Q := by
  refine Costs.bind (f := fun _ => h.length + A) (Q := fun b => h.length = 2 * b.length) ?_ fun b _ hb => ?_
  · exact costs_spend (by omega) fun a ha => ⟨by omega, hexDecode_half _ _ ha⟩
  · refine Costs.bind (f := fun _ => A) (Q := fun _ => True) ?_ fun c _ _ => hg c
    exact costs_spend (by omega) fun a ha => ⟨by omega, trivial⟩

/-! ## persons -/

theorem nameLoop_costs (T : Nat) (ps : List Bytes) (n : Bytes) (h : n.length + partsCost ps ≤ T) :
    Costs (nameLoopW ps n) (T * partsCost ps) (fun p => T * partsCost p.2)
      (fun p => p.1.length + partsCost p.2 ≤ n.length + partsCost ps) := by
  induction ps generalizing n with
  | nil => exact costs_lift fun a ha => by simp at ha
  | cons p ps ih =>
    simp only [partsCost] at h ⊢
    have hm : T * (p.length + 1 + partsCost ps) = T * p.length + T + T * partsCost ps := by
      rw [Nat.mul_add, Nat.mul_add, Nat.mul_one]
    unfold nameLoopW
    split
    · refine Costs.bind (f := fun _ => T * (p.length + 1 + partsCost ps)) (Q := fun _ => True)
        (costs_lift fun a _ => ⟨Nat.le_refl _, trivial⟩) fun c _ _ => ?_
      split
      · exact costs_ok (by simp [partsCost]) (by simp [partsCost])
      · refine Costs.bind (f := fun _ => T * partsCost ps) (Q := fun x => x = n ++ (p ++ [SP])) ?_
          fun x _ hx => ?_
        · exact costs_spend (by omega) fun a ha => ⟨by omega, (Res.ok.inj ha).symm⟩
        · subst hx
          refine (ih _ (by simp; omega)).weaken (Nat.le_refl _) (fun _ _ _ => by omega) fun a _ ha => ?_
          simp at ha; omega
    · split
      · refine Costs.bind (f := fun _ => T * partsCost ps) (Q := fun x => x = n ++ [SP]) ?_
          fun x _ hx => ?_
        · exact costs_spend (by omega) fun a ha => ⟨by omega, (Res.ok.inj ha).symm⟩
        · subst hx
          refine (ih _ (by simp; omega)).weaken (Nat.le_refl _) (fun _ _ _ => by omega) fun a _ ha => ?_
          simp at ha; omega
      · refine Costs.bind (f := fun _ => T * partsCost ps) (Q := fun x => x = n) ?_ fun x _ hx => ?_
        · exact costs_spend (by omega) fun a ha => ⟨by omega, (Res.ok.inj ha).symm⟩
        · subst hx
          exact (ih _ (by omega)).weaken (Nat.le_refl _) (fun _ _ _ => by omega) fun a _ ha => by omega

theorem emailLoop_costs {grow : Nat → Nat → Nat} (hg : Grows grow) (ps : List Bytes) (n : Bytes)
    (cap : Nat) (h : n.length ≤ cap) :
    Costs (emailLoopW grow ps n cap) (slack n.length cap + 12 * partsCost ps)
      (fun p => partsCost p.2) (fun _ => True) := by
  induction ps generalizing n cap with
  | nil => exact costs_lift fun a ha => by simp at ha
  | cons p ps ih =>
    unfold emailLoopW
    simp only [partsCost]
    refine Costs.bind (f := fun _ => slack n.length cap + 12 * (p.length + 1 + partsCost ps))
      (Q := fun q => q.length ≤ p.length) ?_ fun q _ hq => ?_
    · refine costs_lift fun q hq => ⟨Nat.le_refl _, ?_⟩
      split at hq
      · obtain ⟨c, _, hq⟩ := Res.bind_eq_ok.1 hq
        split at hq
        · have := sliceFrom_length _ _ _ hq; omega
        · simp only [Res.ok.injEq] at hq; rw [hq]; exact Nat.le_refl _
      · simp only [Res.ok.injEq] at hq; rw [hq]; exact Nat.le_refl _
    · have more : Costs ((Work.spend (q.length + 1) (.ok (q ++ [SP]))).bind fun x =>
          (pushW grow n.length cap x.length).bind fun cap => emailLoopW grow ps (n ++ x) cap)
          (slack n.length cap + 12 * (p.length + 1 + partsCost ps)) (fun p => partsCost p.2)
          (fun _ => True) := by
        refine Costs.bind (f := fun x => (slack n.length cap + 10 * x.length) + 12 * partsCost ps)
          (Q := fun _ => True) ?_ fun x _ _ => ?_
        · refine costs_spend (by omega) fun a ha => ⟨?_, trivial⟩
          rw [← Res.ok.inj ha]; simp; omega
        · refine Costs.bind ((push_costs hg n.length cap x.length h).frame (12 * partsCost ps))
            fun c _ hc => ?_
          have := ih (n ++ x) c (by simpa using hc)
          simpa using this
      split
      · refine Costs.bind (f := fun _ => slack n.length cap + 12 * (p.length + 1 + partsCost ps))
          (Q := fun _ => True) (costs_lift fun a _ => ⟨Nat.le_refl _, trivial⟩) fun c _ _ => ?_
        split
        · refine Costs.bind (f := fun x => (slack n.length cap + 10 * x.length) + partsCost ps)
            (Q := fun _ => True) ?_ fun x _ _ => ?_
          · refine costs_spend (by omega) fun a ha => ⟨?_, trivial⟩
            have : a.length + 1 = q.length := by
              unfold chop at ha
              split at ha
              · simp at ha
              · simp only [Res.ok.injEq] at ha
                rw [← ha, List.length_dropLast]
                omega
            omega
          · refine Costs.bind ((push_costs hg n.length cap x.length h).frame (partsCost ps))
              fun c _ hc => ?_
            exact costs_ok (by simp) trivial
        · exact more
      · exact more

theorem person_costs {grow : Nat → Nat → Nat} (hg : Grows grow) (C : Nat) (l : Bytes)
    (hC : l.length + 16 ≤ C) :
    Costs (parsePersonInfoW grow l) (worth C l) (fun _ => 0) (fun _ => True) := by
  have hw := worth_ge l hC
  have hs := partsCost_split l
  have hm : (l.length + 16) * (l.length + 1) = (l.length + 1) * (l.length + 1) + 15 * (l.length + 1) := by
    rw [← Nat.add_mul]
  unfold parsePersonInfoW
  refine Costs.bind (f := fun _ => (l.length + 1) * (l.length + 1) + 12 * (l.length + 1))
    (Q := fun ps => ps = splitSp l) ?_ fun ps _ hps => ?_
  · exact costs_spend (by omega) fun a ha => ⟨by omega, (Res.ok.inj ha).symm⟩
  · subst hps
    split
    · exact costs_lift fun a ha => by simp at ha
    · have hd : partsCost ((splitSp l).drop 1) ≤ l.length + 1 := by
        rw [← hs]
        generalize splitSp l = ps
        cases ps with
        | nil => exact Nat.le_refl _
        | cons x r => simp [partsCost]
      have hn := (nameLoop_costs (l.length + 1) ((splitSp l).drop 1) [] (by simpa using hd)).frame
        (12 * (l.length + 1))
      refine Costs.bind (hn.weaken (f' := fun p => 12 * partsCost p.2)
        (Q' := fun _ => True) ?_ ?_ fun _ _ _ => trivial) fun p _ _ => ?_
      · have := Nat.mul_le_mul_left (l.length + 1) hd
        omega
      · intro p _ hp
        simp only [List.length_nil, Nat.zero_add] at hp
        omega
      · refine Costs.bind (f := fun _ => 12 * partsCost p.2) (Q := fun _ => True)
          (costs_lift fun a _ => ⟨Nat.le_refl _, trivial⟩) fun name _ _ => ?_
        refine Costs.bind ((emailLoop_costs hg p.2 [] 0 (by simp)).weaken (f' := fun q => partsCost q.2)
          (Q' := fun _ => True) (by simp [slack]) (fun _ _ _ => by omega) fun _ _ _ => trivial)
          fun q _ _ => ?_
        have : (personRest name q.1 q.2).date.length + (personRest name q.1 q.2).timezone.length ≤
            partsCost q.2 := by
          generalize q.2 = r
          rcases r with _ | ⟨d, _ | ⟨t, r⟩⟩ <;> simp [personRest, partsCost] <;> omega
        exact costs_spend this fun a _ => ⟨by simpa using this, trivial⟩

/-! ## signatures and merge tags -/

theorem worth_cons (C : Nat) (l : Bytes) (hC : 11 ≤ C) : 11 * (l.length + 1) ≤ worth C l := worth_ge l hC

/-- Appending a line to a builder, /repo/commit.go:157 and /repo/tag.go:120. -/
theorem keep_costs {grow : Nat → Nat → Nat} (hg : Grows grow) {β : Type} (C : Nat) (hC : 11 ≤ C)
    (l m : Bytes) (cap X : Nat) (h : m.length ≤ cap) (g : Bytes → Nat → Work β) (f : β → Nat)
    (Q : β → Prop)
    (hgo : ∀ c, (m ++ (l ++ [LF])).length ≤ c →
      Costs (g (l ++ [LF]) c) (slack (m ++ (l ++ [LF])).length c + X) f Q) :
    Costs ((Work.spend (l.length + 1) (.ok (l ++ [LF]))).bind fun x =>
      (pushW grow m.length cap x.length).bind fun c => g x c)
      (worth C l + slack m.length cap + X) f Q := by
  have := worth_cons C l hC
  refine Costs.bind (f := fun x => slack m.length cap + 10 * x.length + X)
    (Q := fun x => x = l ++ [LF]) ?_ fun x _ hx => ?_
  · refine costs_spend (by omega) fun a ha => ⟨?_, (Res.ok.inj ha).symm⟩
    rw [← Res.ok.inj ha]; simp; omega
  · subst hx
    refine Costs.bind ((push_costs hg m.length cap (l ++ [LF]).length h).frame X) fun c _ hc => ?_
    have := hgo c (by simpa using hc)
    rw [List.length_append] at this
    exact this

theorem mergeMsg_costs {grow : Nat → Nat → Nat} (hg : Grows grow) {M : Nat} (C : Nat) (hC : 11 ≤ C) (f : Nat)
    (m : Bytes) (cap : Nat) (s : Stream) (hS : Short M s) (h : m.length ≤ cap) :
    Costs (mergeMsgLoopW grow f m cap s) (purse C s + 1 + slack m.length cap)
      (fun p => worth C p.1.2 + purse C p.2 + 1)
      (fun p => p.1.2.length ≤ M ∧ Short M p.2) := by
  induction f generalizing m cap s with
  | zero => exact costs_lift fun a ha => by simp at ha
  | succ f ih =>
    unfold mergeMsgLoopW
    refine Costs.bind ((line_costs C s hS).frame (slack m.length cap)) fun p _ hp => ?_
    split
    · exact costs_ok (by simp only; omega) hp
    · have := keep_costs hg (β := (Bytes × Bytes) × Stream) C hC p.1 m cap (purse C p.2 + 1) h
        (fun x c => mergeMsgLoopW grow f (m ++ x) c p.2)
        (fun p => worth C p.1.2 + purse C p.2 + 1)
        (fun q => q.1.2.length ≤ M ∧ Short M q.2) ?_
      · refine this.weaken (by omega) (fun _ _ _ => by omega) fun _ _ h => h
      · intro c hc
        have := ih (m ++ (p.1 ++ [LF])) c p.2 hp.2 hc
        exact this.weaken (by omega) (fun _ _ _ => by omega) fun _ _ h => h

theorem sigLoop_costs {grow : Nat → Nat → Nat} (hg : Grows grow) {M : Nat} (C : Nat) (hC : 11 ≤ C) (f : Nat)
    (m : Bytes) (cap : Nat) (s : Stream) (hS : Short M s) (h : m.length ≤ cap) :
    Costs (sigLoopW grow f m cap s) (purse C s + 1 + slack m.length cap)
      (fun p => purse C p.2 + 1) (fun p => Short M p.2) := by
  induction f generalizing m cap s with
  | zero => exact costs_lift fun a ha => by simp at ha
  | succ f ih =>
    unfold sigLoopW
    refine Costs.bind ((line_costs C s hS).frame (slack m.length cap)) fun p _ hp => ?_
    split
    · exact costs_ok (by simp only; omega) hp.2
    · have := keep_costs hg (β := Bytes × Stream) C hC p.1 m cap (purse C p.2 + 1) h
        (fun x c => sigLoopW grow f (m ++ x) c p.2)
        (fun p => purse C p.2 + 1)
        (fun q => Short M q.2) ?_
      · refine this.weaken (by omega) (fun _ _ _ => by omega) fun _ _ h => h
      · intro c hc
        have := ih (m ++ (p.1 ++ [LF])) c p.2 hp.2 hc
        exact this.weaken (by omega) (fun _ _ _ => by omega) fun _ _ h => h

theorem gpgSig_costs {grow : Nat → Nat → Nat} (hg : Grows grow) {M : Nat} (C : Nat) (hC : 11 ≤ C)
    (s : Stream) (hS : Short M s) :
    Costs (decodeGpgSigW grow s) (purse C s + 1) (fun p => purse C p.2 + 1)
      (fun p => Short M p.2) := by
  unfold decodeGpgSigW
  refine Costs.bind (line_costs C s hS) fun p _ hp => ?_
  have hw := worth_cons C p.1 hC
  refine Costs.bind (f := fun x => slack 0 0 + 10 * x.length + (purse C p.2 + 1))
    (Q := fun x => x.length = p.1.length + 1) ?_ fun x _ hx => ?_
  · refine costs_spend (by omega) fun a ha => ?_
    have : a.length = p.1.length + 1 := by
      split at ha
      · split at ha
        · rw [← Res.ok.inj ha]; simp
        · simp at ha
      · rename_i h
        rw [← Res.ok.inj ha, Classical.not_not.1 h]; rfl
    refine ⟨?_, this⟩
    simp only [slack]; omega
  · refine Costs.bind ((push_costs hg 0 0 x.length (by omega)).frame (purse C p.2 + 1)) fun c _ hc => ?_
    have := sigLoop_costs hg C hC (Reader.left p.2 + 1) x c p.2 hp.2 (by omega)
    exact this.weaken (by simp only [Nat.zero_add]; omega) (fun _ _ _ => by omega) fun _ _ h => h

/-- What a merge tag leaves for the line that ended it. -/
def restWorth (C : Nat) : Option Bytes → Nat
  | none => 0
  | some l => worth C l

theorem tail_costs {β : Type} (l : Bytes) (n A : Nat) (g : Bytes → Work β) (f : β → Nat) (Q : β → Prop)
    (hg : ∀ x, Costs (g x) A f Q) : Costs ((tailW l n).bind g) (l.length + A) f Q := by
  refine Costs.bind (f := fun _ => A) (Q := fun _ => True) ?_ fun x _ _ => hg x
  exact costs_spend (by omega) fun _ _ => ⟨by omega, trivial⟩

theorem mergeTagLoop_costs {grow : Nat → Nat → Nat} (hg : Grows grow) {M : Nat} (C : Nat) (f : Nat)
    (o : Tag) (s : Stream) (hS : Short M s) (hC : M + 16 ≤ C) :
    Costs (mergeTagLoopW grow f o s) (purse C s + 1)
      (fun p => restWorth C p.1.2 + purse C p.2)
      (fun p => (∀ l, p.1.2 = some l → l.length ≤ M) ∧ Short M p.2) := by
  induction f generalizing o s with
  | zero => exact costs_lift fun a ha => by simp at ha
  | succ f ih =>
    unfold mergeTagLoopW
    cases hr : Stream.readLine s with
    | err e =>
      have h1 := lineW_err s e hr
      simp only [lineW_res, reader_readLine, hr]
      by_cases he : e = .eof
      · subst he
        refine costs_spend (by omega) fun a ha => ?_
        rw [← Res.ok.inj ha]
        refine ⟨by simp only [restWorth]; omega, by simp, hS⟩
      · cases e <;> first | exact absurd rfl he | exact costs_fails (by omega) (by simp)
    | panic =>
      have h1 := lineW_panic s hr
      simp only [lineW_res, reader_readLine, hr]
      exact costs_fails (by omega) (by simp)
    | ok p =>
      obtain ⟨line, t⟩ := p
      have hl := line_costs C s hS
      obtain ⟨h1, h2⟩ := hl.2 (line, t) hr
      simp only [lineW_res, reader_readLine, hr]
      simp only at h1 h2
      have hw := worth_ge line (n := 16) (C := C) (by omega)
      refine Costs.bind (f := fun _ => worth C line + (purse C t + 1)) (Q := fun _ => True)
        (costs_spend (by omega) fun _ _ => ⟨by omega, trivial⟩) fun _ _ _ => ?_
      have next : ∀ o', Costs (mergeTagLoopW grow f o' t) (purse C t + 1)
          (fun p => restWorth C p.1.2 + purse C p.2)
          (fun p => (∀ l, p.1.2 = some l → l.length ≤ M) ∧ Short M p.2) := by
        intro o'
        exact ih o' t h2.2
      split
      · exact (tail_costs line 6 _ _ _ _ fun x => next _).weaken (by omega) (fun _ _ _ => by omega)
          fun _ _ h => h
      · split
        · exact (tail_costs line 5 _ _ _ _ fun x => next _).weaken (by omega) (fun _ _ _ => by omega)
            fun _ _ h => h
        · split
          · refine Costs.bind (f := fun l => worth C l + (purse C t + 1))
              (Q := fun l => l.length + 1 = line.length) ?_ fun l _ hll => ?_
            · refine costs_lift fun a ha => ?_
              have := sliceFrom_length _ _ _ ha
              refine ⟨?_, this⟩
              have : worth C a ≤ worth C line := Nat.mul_le_mul_left _ (by omega)
              omega
            · refine Costs.bind ((person_costs hg C l (by omega)).frame (purse C t + 1))
                fun p _ _ => ?_
              exact (next _).weaken (by omega) (fun _ _ _ => by omega) fun _ _ h => h
          · split
            · refine Costs.bind ((mergeMsg_costs hg C (by omega) (Reader.left t + 1) [] 0 t h2.2
                (by simp)).weaken (A' := worth C line + (purse C t + 1))
                (f' := fun p => worth C p.1.2 + purse C p.2)
                (Q' := fun p => p.1.2.length ≤ M ∧ Short M p.2) ?_ ?_ ?_)
                fun p _ hp => ?_
              · simp [slack]
              · intro a _ _; simp only [slack, List.length_nil]; omega
              · intro a _ h; exact h
              · refine costs_ok (by simp [restWorth]) ⟨?_, hp.2⟩
                intro l hl
                simp only [Option.some.injEq] at hl
                rw [← hl]; exact hp.1
            · exact (next _).weaken (by omega) (fun _ _ _ => by omega) fun _ _ h => h

theorem readMergeTag_costs {grow : Nat → Nat → Nat} (hg : Grows grow) {M : Nat} (C : Nat) (h : Bytes)
    (s : Stream) (hS : Short M s) (hC : M + 16 ≤ C) :
    Costs (readMergeTagW grow h s) (h.length + (purse C s + 1))
      (fun p => restWorth C p.1.2 + purse C p.2)
      (fun p => (∀ l, p.1.2 = some l → l.length ≤ M) ∧ Short M p.2) := by
  unfold readMergeTagW
  refine Costs.bind (f := fun _ => purse C s + 1) (Q := fun _ => True)
    (costs_spend (by omega) fun _ _ => ⟨by omega, trivial⟩) fun c _ _ => ?_
  exact mergeTagLoop_costs hg C _ _ s hS hC

/-! ## commits -/

/-- What the slices of a commit have saved. -/
def roomSlack (c : Commit) (m : Room) : Nat :=
  slack c.parents.length m.parents + slack c.mergetag.length m.mergetag + slack c.other.length m.other

/-- The capacities suffice. -/
def Roomy (c : Commit) (m : Room) : Prop :=
  c.parents.length ≤ m.parents ∧ c.mergetag.length ≤ m.mergetag ∧ c.other.length ≤ m.other

theorem commitLine_costs {grow : Nat → Nat → Nat} (hg : Grows grow) {M : Nat} (C : Nat) (f : Nat)
    (c : Commit) (m : Room) (line : Bytes) (s : Stream) (hS : Short M s) (hC : M + 16 ≤ C)
    (hl : line.length ≤ M) (hm : Roomy c m) :
    Costs (commitLineW grow f c m line s) (worth C line + purse C s + roomSlack c m)
      (fun p => purse C p.2 + roomSlack p.1.1 p.1.2)
      (fun p => Roomy p.1.1 p.1.2 ∧ Short M p.2) := by
  induction f generalizing c m line s with
  | zero => exact costs_lift fun a ha => by simp at ha
  | succ f ih =>
    have hw := worth_ge line (n := 16) (C := C) (by omega)
    have slice : ∀ n x, sliceFrom line n = .ok x → x.length + n = line.length :=
      fun n x h => sliceFrom_length _ _ _ h
    have slic : ∀ n, Costs (Work.lift (sliceFrom line n)) (worth C line + purse C s + roomSlack c m)
        (fun _ => worth C line + purse C s + roomSlack c m) (fun x => x.length ≤ line.length) :=
      fun n => costs_lift fun a ha => ⟨Nat.le_refl _, by have := slice n a ha; omega⟩
    unfold commitLineW
    split
    · refine Costs.bind (slic 5) fun x _ hx => ?_
      refine (link_costs x _ (purse C s + roomSlack c m) (fun p => purse C p.2 + roomSlack p.1.1 p.1.2)
        (fun p => Roomy p.1.1 p.1.2 ∧ Short M p.2) fun cid => ?_).weaken (by omega)
        (fun _ _ _ => by omega) fun _ _ h => h
      exact costs_ok (Nat.le_refl _) ⟨hm, hS⟩
    · split
      · refine Costs.bind (slic 7) fun x _ hx => ?_
        refine (link_costs x _ (10 + purse C s + roomSlack c m)
          (fun p => purse C p.2 + roomSlack p.1.1 p.1.2)
          (fun p => Roomy p.1.1 p.1.2 ∧ Short M p.2) fun cid => ?_).weaken (by omega)
          (fun _ _ _ => by omega) fun _ _ h => h
        refine Costs.bind (((push_costs hg c.parents.length m.parents 1 hm.1).frame
          (purse C s + slack c.mergetag.length m.mergetag + slack c.other.length m.other)).weaken
          (A' := 10 + purse C s + roomSlack c m) (by simp only [roomSlack]; omega)
          (fun _ _ _ => Nat.le_add_right _ _) fun _ _ h => h) fun cap _ hc => ?_
        refine costs_ok ?_ ⟨⟨by simpa using hc, hm.2⟩, hS⟩
        dsimp only [roomSlack]
        simp only [List.length_append, List.length_cons, List.length_nil, Nat.zero_add]
        omega
      · split
        · refine Costs.bind (((person_costs hg C line (by omega)).frame (purse C s + roomSlack c m)).weaken
            (f' := fun _ => purse C s + roomSlack c m) (by omega) (fun _ _ _ => by omega)
            fun _ _ h => h) fun p _ _ => ?_
          exact costs_ok (Nat.le_refl _) ⟨hm, hS⟩
        · split
          · refine Costs.bind (((person_costs hg C line (by omega)).frame
              (purse C s + roomSlack c m)).weaken
              (f' := fun _ => purse C s + roomSlack c m) (by omega) (fun _ _ _ => by omega)
              fun _ _ h => h) fun p _ _ => ?_
            exact costs_ok (Nat.le_refl _) ⟨hm, hS⟩
          · split
            · refine (tail_costs line 9 (purse C s + roomSlack c m) _
                (fun p => purse C p.2 + roomSlack p.1.1 p.1.2)
                (fun p => Roomy p.1.1 p.1.2 ∧ Short M p.2) fun x => ?_).weaken (by omega)
                (fun _ _ _ => by omega) fun _ _ h => h
              exact costs_ok (Nat.le_refl _) ⟨hm, hS⟩
            · split
              · refine Costs.bind (f := fun _ => 15 * (line.length + 1) + purse C s + roomSlack c m)
                  (Q := fun x => x.length ≤ line.length) ?_ fun h _ hh => ?_
                · exact costs_spend (by omega) fun a ha =>
                    ⟨by omega, by have := slice 16 a ha; omega⟩
                refine Costs.bind (f := fun b => b.length + (purse C s + 1) + (10 + roomSlack c m))
                  (Q := fun _ => True) ?_ fun sha _ _ => ?_
                · refine costs_spend (by omega) fun a ha => ⟨?_, trivial⟩
                  have := hexDecode_half _ _ ha
                  omega
                refine Costs.bind ((readMergeTag_costs hg C sha s hS hC).frame (10 + roomSlack c m))
                  fun p _ hp => ?_
                refine Costs.bind (((push_costs hg c.mergetag.length m.mergetag 1 hm.2.1).frame
                  (restWorth C p.1.2 + purse C p.2 +
                    (slack c.parents.length m.parents + slack c.other.length m.other))).weaken
                  (by simp only [roomSlack]; omega)
                  (fun _ _ _ => Nat.le_add_right _ _) fun _ _ h => h) fun cap _ hc => ?_
                have hroom : Roomy { c with mergetag := c.mergetag ++ [p.1.1] } { m with mergetag := cap } :=
                  ⟨hm.1, by simpa using hc, hm.2.2⟩
                have hs : roomSlack { c with mergetag := c.mergetag ++ [p.1.1] } { m with mergetag := cap } =
                    slack c.parents.length m.parents + slack (c.mergetag.length + 1) cap +
                      slack c.other.length m.other := by
                  simp [roomSlack]
                split
                · rename_i hn
                  refine costs_ok ?_ ⟨hroom, hp.2⟩
                  simp only [hs, hn, restWorth]
                  omega
                · rename_i l hn
                  have := ih { c with mergetag := c.mergetag ++ [p.1.1] } { m with mergetag := cap } l p.2
                    hp.2 (hp.1 l hn) hroom
                  refine this.weaken ?_ (fun _ _ _ => by omega) fun _ _ h => h
                  simp only [hs, hn, restWorth]
                  omega
              · split
                · refine Costs.bind (((gpgSig_costs hg C (by omega) s hS).frame (roomSlack c m)).weaken
                    (f' := fun p => purse C p.2 + roomSlack c m)
                    (by omega) (fun _ _ _ => by omega) fun _ _ h => h) fun p _ hp => ?_
                  exact costs_ok (Nat.le_refl _) ⟨hm, hp⟩
                · split
                  · refine Costs.bind (((all_costs C s hS).frame (roomSlack c m)).weaken
                      (f' := fun p => purse C p.2 + roomSlack c m)
                      (by omega) (fun _ _ _ => by omega) fun _ _ h => h) fun p _ hp => ?_
                    exact costs_ok (Nat.le_refl _) ⟨hm, hp⟩
                  · refine Costs.bind (f := fun _ => 10 + purse C s + roomSlack c m) (Q := fun _ => True)
                      (costs_spend (by omega) fun _ _ => ⟨by omega, trivial⟩) fun x _ _ => ?_
                    refine Costs.bind (((push_costs hg c.other.length m.other 1 hm.2.2).frame
                      (purse C s + slack c.parents.length m.parents +
                        slack c.mergetag.length m.mergetag)).weaken (by simp only [roomSlack]; omega)
                      (fun _ _ _ => Nat.le_add_right _ _) fun _ _ h => h) fun cap _ hc => ?_
                    refine costs_ok ?_ ⟨⟨hm.1, hm.2.1, by simpa using hc⟩, hS⟩
                    dsimp only [roomSlack]
                    simp only [List.length_append, List.length_cons, List.length_nil, Nat.zero_add]
                    omega

theorem commitLoop_costs {grow : Nat → Nat → Nat} (hg : Grows grow) {M : Nat} (C : Nat) (f : Nat)
    (c : Commit) (m : Room) (s : Stream) (hS : Short M s) (hC : M + 16 ≤ C) (hm : Roomy c m) :
    (commitLoopW grow f c m s).cost ≤ purse C s + roomSlack c m + 1 := by
  induction f generalizing c m s with
  | zero => exact Nat.zero_le _
  | succ f ih =>
    unfold commitLoopW
    cases hr : Stream.readLine s with
    | err e =>
      have h1 := lineW_err s e hr
      simp only [lineW_res, reader_readLine, hr]
      cases e <;> simp only [Work.spend_cost] <;> omega
    | panic =>
      have h1 := lineW_panic s hr
      simp only [lineW_res, reader_readLine, hr, Work.spend_cost]
      omega
    | ok p =>
      obtain ⟨line, t⟩ := p
      have hl := line_costs C s hS
      obtain ⟨h1, h2⟩ := hl.2 (line, t) hr
      simp only [lineW_res, reader_readLine, hr]
      simp only at h1 h2
      have : Costs ((Work.spend (lineW s).cost (.ok ())).bind fun _ =>
          (commitLineW grow (Reader.left t + 1) c m line t).bind fun p => commitLoopW grow f p.1.1 p.1.2 p.2)
          (purse C s + roomSlack c m + 1) (fun _ => 0) (fun _ => True) := by
        refine Costs.bind (f := fun _ => worth C line + purse C t + roomSlack c m + 1) (Q := fun _ => True)
          (costs_spend (by omega) fun _ _ => ⟨by omega, trivial⟩) fun _ _ _ => ?_
        refine Costs.bind ((commitLine_costs hg C _ c m line t h2.2 hC h2.1 hm).frame 1)
          fun p _ hp => ?_
        have := ih p.1.1 p.1.2 p.2 hp.2 hp.1
        exact ⟨this, fun _ _ => ⟨this, trivial⟩⟩
      exact this.1

/-! ## tags -/

theorem tagLine_costs {grow : Nat → Nat → Nat} (hg : Grows grow) {M : Nat} (C : Nat) (o : Tag) (line : Bytes)
    (s : Stream) (hS : Short M s) (hC : M + 16 ≤ C) (hl : line.length ≤ M) :
    Costs (tagLineW grow o line s) (worth C line + purse C s) (fun p => purse C p.2)
      (fun p => Short M p.2) := by
  have hw := worth_ge line (n := 16) (C := C) (by omega)
  unfold tagLineW
  split
  · refine Costs.bind (f := fun _ => worth C line + purse C s) (Q := fun x => x.length ≤ line.length)
      (costs_lift fun a ha => ⟨Nat.le_refl _, by have := sliceFrom_length _ _ _ ha; omega⟩) fun x _ hx => ?_
    refine (link_costs x _ (purse C s) (fun p => purse C p.2) (fun p => Short M p.2)
      fun cid => ?_).weaken (by omega) (fun _ _ _ => by omega) fun _ _ h => h
    exact costs_ok (Nat.le_refl _) hS
  · split
    · refine (tail_costs line 4 (purse C s) _ (fun p => purse C p.2) (fun p => Short M p.2)
        fun x => ?_).weaken (by omega) (fun _ _ _ => by omega) fun _ _ h => h
      exact costs_ok (Nat.le_refl _) hS
    · split
      · refine Costs.bind (((person_costs hg C line (by omega)).frame (purse C s)).weaken
          (f' := fun _ => purse C s) (by omega) (fun _ _ _ => by omega) fun _ _ h => h) fun p _ _ => ?_
        exact costs_ok (Nat.le_refl _) hS
      · split
        · refine (tail_costs line 5 (purse C s) _ (fun p => purse C p.2) (fun p => Short M p.2)
            fun x => ?_).weaken (by omega) (fun _ _ _ => by omega) fun _ _ h => h
          exact costs_ok (Nat.le_refl _) hS
        · split
          · refine Costs.bind ((all_costs C s hS).weaken (f' := fun p => purse C p.2)
              (by omega) (fun _ _ _ => by omega) fun _ _ h => h) fun p _ hp => ?_
            exact costs_ok (Nat.le_refl _) hp
          · refine costs_spend (by omega) fun a ha => ?_
            rw [← Res.ok.inj ha]
            exact ⟨by dsimp only; omega, hS⟩

theorem tagLoop_costs {grow : Nat → Nat → Nat} (hg : Grows grow) {M : Nat} (C : Nat) (f : Nat) (o : Tag)
    (s : Stream) (hS : Short M s) (hC : M + 16 ≤ C) :
    (tagLoopW grow f o s).cost ≤ purse C s + 1 := by
  induction f generalizing o s with
  | zero => exact Nat.zero_le _
  | succ f ih =>
    unfold tagLoopW
    cases hr : Stream.readLine s with
    | err e =>
      have h1 := lineW_err s e hr
      simp only [lineW_res, reader_readLine, hr]
      cases e <;> simp only [Work.spend_cost] <;> omega
    | panic =>
      have h1 := lineW_panic s hr
      simp only [lineW_res, reader_readLine, hr, Work.spend_cost]
      omega
    | ok p =>
      obtain ⟨line, t⟩ := p
      have hl := line_costs C s hS
      obtain ⟨h1, h2⟩ := hl.2 (line, t) hr
      simp only [lineW_res, reader_readLine, hr]
      simp only at h1 h2
      have : Costs ((Work.spend (lineW s).cost (.ok ())).bind fun _ =>
          (tagLineW grow o line t).bind fun p => tagLoopW grow f p.1 p.2)
          (purse C s + 1) (fun _ => 0) (fun _ => True) := by
        refine Costs.bind (f := fun _ => worth C line + purse C t + 1) (Q := fun _ => True)
          (costs_spend (by omega) fun _ _ => ⟨by omega, trivial⟩) fun _ _ _ => ?_
        refine Costs.bind ((tagLine_costs hg C o line t h2.2 hC h2.1).frame 1) fun p _ hp => ?_
        have := ih p.1 p.2 hp
        exact ⟨this, fun _ _ => ⟨this, trivial⟩⟩
      exact this.1

/-! ## trees and blobs -/

theorem readNum_costs (s : Stream) :
    Costs (readNumW s) (2 * s.rest.length + 1) (fun p => 2 * p.2.rest.length + 1)
      (fun p => p.1 < 2 ^ 63 ∧ p.2.bufsz = s.bufsz) := by
  unfold readNumW
  refine Costs.bind ((string_costs NUL s s.rest.length).weaken
    (f' := fun p => p.1.length + (2 * p.2.rest.length + 1)) (by omega) ?_ fun _ _ h => h) fun p _ hp => ?_
  · intro a _ h; omega
  · refine Costs.bind (f := fun x => x.length + (2 * p.2.rest.length + 1)) (Q := fun _ => True) ?_
      fun x _ _ => ?_
    · refine costs_lift fun a ha => ⟨?_, trivial⟩
      unfold chop at ha
      split at ha
      · simp at ha
      · rw [← Res.ok.inj ha, List.length_dropLast]; omega
    · refine Costs.bind (f := fun _ => 2 * p.2.rest.length + 1) (Q := fun n => n < 2 ^ 63) ?_ fun n _ hn => ?_
      · exact costs_spend (by omega) fun a ha => ⟨by omega, ((atoi_iff _ _).1 ha).2.2⟩
      · exact costs_ok (Nat.le_refl _) ⟨hn, hp.2.2⟩

theorem blob_costs (s : Stream) : (decodeBlobW s).cost ≤ 2 * s.rest.length + 26 := by
  have : Costs (decodeBlobW s) (2 * s.rest.length + 1 + 25) (fun _ => 0) (fun _ => True) := by
    unfold decodeBlobW
    refine Costs.bind ((readNum_costs s).frame 25) fun p _ hp => ?_
    split
    · exact costs_lift fun a ha => by simp at ha
    · rename_i h0
      have hs := decimal_short p.1.toNat (by omega)
      have hlen : (b!"blob " ++ decimal p.1.toNat ++ [NUL]).length ≤ 25 := by
        simp only [List.length_append, List.length_cons, List.length_nil, Nat.zero_add]
        omega
      refine Costs.bind (f := fun _ => 2 * p.2.rest.length + 1) (Q := fun _ => True)
        (costs_spend (by omega) fun _ _ => ⟨by omega, trivial⟩) fun pre _ _ => ?_
      refine Costs.bind (f := fun _ => 0) (Q := fun _ => True) ?_ fun q _ _ => ?_
      · simp only [reader_readLimited, reader_left]
        cases hr : Stream.readLimited p.1.toNat p.2 with
        | err e => exact costs_fails (by simp only; omega) (by simp)
        | panic => exact costs_fails (by simp only; omega) (by simp)
        | ok q =>
          have : q.1.length ≤ p.2.rest.length := by
            unfold Stream.readLimited at hr
            split at hr
            · rw [← Res.ok.inj hr]; simp only [List.length_take]; omega
            · split at hr
              · rw [← Res.ok.inj hr]; exact Nat.le_refl _
              · simp at hr
          exact costs_spend (by simp only; omega) fun _ _ => ⟨by simp only; omega, trivial⟩
      · split
        · split <;> exact costs_lift fun a ha => by simp at ha
        · exact costs_ok (Nat.le_refl _) trivial
  exact this.1

theorem treeEntry_costs (s : Stream) :
    Costs (decodeTreeEntryW s) (5 * s.rest.length + 1)
      (fun p => 2 * p.1.1.length + 10 + (5 * p.2.rest.length + 1)) (fun _ => True) := by
  unfold decodeTreeEntryW
  refine Costs.bind ((string_costs SP s (4 * s.rest.length)).weaken
    (f' := fun p => 5 * p.2.rest.length + 1) (by omega) (fun a _ h => by omega) fun _ _ h => h)
    fun p _ hp => ?_
  refine Costs.bind (f := fun _ => 5 * p.2.rest.length + 1) (Q := fun _ => True)
    (costs_lift fun _ _ => ⟨Nat.le_refl _, trivial⟩) fun data _ _ => ?_
  refine Costs.bind ((string_costs NUL p.2 (4 * p.2.rest.length)).weaken
    (f' := fun q => 4 * q.1.length + 5 * q.2.rest.length + 1) (by omega) (fun a _ h => by omega)
    fun _ _ h => h) fun q _ hq => ?_
  refine Costs.bind (f := fun n => 4 * n.length + 5 * q.2.rest.length + 1) (Q := fun _ => True) ?_
    fun n _ _ => ?_
  · refine costs_lift fun a ha => ⟨?_, trivial⟩
    unfold chop at ha
    split at ha
    · simp at ha
    · rw [← Res.ok.inj ha, List.length_dropLast]; omega
  refine Costs.bind (f := fun r => 4 * n.length + 50 + 5 * r.2.rest.length + 1)
    (Q := fun r => r.1.length = 20) ?_ fun r _ hr => ?_
  · simp only [reader_readFull, reader_left]
    cases hr : Stream.readFull 20 q.2 with
    | err e => exact costs_fails (by simp only; omega) (by simp)
    | panic => exact costs_fails (by simp only; omega) (by simp)
    | ok r =>
      unfold Stream.readFull at hr
      split at hr
      · rename_i hle
        refine costs_spend (by simp only; omega) fun a ha => ?_
        rw [← Res.ok.inj ha, ← Res.ok.inj hr]
        simp only [List.length_drop, List.length_take]
        omega
      · split at hr
        · split at hr <;> simp at hr
        · simp at hr
  · refine Costs.bind (f := fun _ => 2 * n.length + 10 + (5 * r.2.rest.length + 1)) (Q := fun _ => True)
      (costs_spend (by omega) fun _ _ => ⟨by omega, trivial⟩) fun c _ _ => ?_
    exact costs_ok (Nat.le_refl _) trivial

theorem treeLoop_costs {grow : Nat → Nat → Nat} (hg : Grows grow) (f : Nat) (t : Tree) (cap : Nat)
    (s : Stream) (h : t.t.length ≤ cap) :
    (treeLoopW grow f t cap s).cost ≤ 5 * s.rest.length + 1 + slack t.t.length cap := by
  induction f generalizing t cap s with
  | zero => exact Nat.zero_le _
  | succ f ih =>
    unfold treeLoopW
    have he := treeEntry_costs s
    cases hr : (decodeTreeEntryW s).res with
    | err e => cases e <;> simp only [Work.spend_cost] <;> have := he.1 <;> omega
    | panic => simp only [Work.spend_cost]; have := he.1; omega
    | ok p =>
      obtain ⟨⟨name, e⟩, s'⟩ := p
      simp only
      have h1 := (he.2 _ hr).1
      simp only at h1
      have : Costs ((Work.spend ((decodeTreeEntryW s).cost + 2 * name.length) (treeAdd t name e)).bind
          fun t' => (pushW grow t.t.length cap 1).bind fun cap => treeLoopW grow f t' cap s')
          (5 * s.rest.length + 1 + slack t.t.length cap) (fun _ => 0) (fun _ => True) := by
        refine Costs.bind (f := fun _ => slack t.t.length cap + 10 * 1 + (5 * s'.rest.length + 1))
          (Q := fun t' => t'.t.length = t.t.length + 1) ?_ fun t' _ ht => ?_
        · refine costs_spend (by omega) fun a ha => ⟨by omega, ?_⟩
          unfold treeAdd at ha
          split at ha
          · simp at ha
          · rw [← Res.ok.inj ha]; simp
        · refine Costs.bind ((push_costs hg t.t.length cap 1 h).frame _) fun c _ hc => ?_
          have := ih t' c s' (by omega)
          rw [ht] at this
          have : (treeLoopW grow f t' c s').cost ≤ slack (t.t.length + 1) c + (5 * s'.rest.length + 1) := by
            omega
          exact ⟨this, fun _ _ => ⟨this, trivial⟩⟩
      exact this.1

theorem Costs.of_cost {α : Type} {x : Work α} {A : Nat} (h : x.cost ≤ A) :
    Costs x A (fun _ => 0) (fun _ => True) := ⟨h, fun _ _ => ⟨h, trivial⟩⟩

theorem tree_costs {grow : Nat → Nat → Nat} (hg : Grows grow) (s : Stream) :
    (decodeTreeW grow s).cost ≤ 5 * s.rest.length + 1 := by
  have : Costs (decodeTreeW grow s) (5 * s.rest.length + 1) (fun _ => 0) (fun _ => True) := by
    unfold decodeTreeW
    refine Costs.bind ((readNum_costs s).weaken (f' := fun p => 5 * p.2.rest.length + 1)
      (Q' := fun _ => True) (by omega) ?_ fun _ _ _ => trivial) fun p hp _ => ?_
    · intro a ha _
      have : a.2.rest.length ≤ s.rest.length := by
        rw [readNumW_res] at ha
        exact (readNum_lt s _ _ ha).le
      omega
    · exact .of_cost (by simpa [slack] using treeLoop_costs hg _ { m := [], t := [] } 0 p.2 (by simp))
  exact this.1

end Verif
