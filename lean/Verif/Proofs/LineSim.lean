import Verif.Model.Decode

/-!
# Readers that give the same lines

If two readers give the same lines, the decoders of commits and tags do the same on
them, whatever the two have left to read. Only the message is read in another way, so
it is related like the rest of the readers.
-/

namespace Verif

section

variable {σ τ : Type} [Reader σ] [Reader τ]

/-- The readers give the same lines and use up what is left. -/
structure SameLines (R : σ → τ → Prop) : Prop where
  readLine : ∀ s t, R s t →
    (∃ e, Reader.readLine s = .err e ∧ Reader.readLine t = .err e) ∨
    (∃ l s' t', Reader.readLine s = .ok (l, s') ∧ Reader.readLine t = .ok (l, t') ∧ R s' t' ∧
      Reader.left s' < Reader.left s ∧ Reader.left t' < Reader.left t)

/-- Moreover, what they have left is related by `P`. -/
structure LineSim (R : σ → τ → Prop) (P : Bytes → Bytes → Prop) : Prop extends SameLines R where
  readAll : ∀ s t, R s t →
    (∃ e, Reader.readAll s = .err e ∧ Reader.readAll t = .err e) ∨
    (∃ x y s' t', Reader.readAll s = .ok (x, s') ∧ Reader.readAll t = .ok (y, t') ∧ P x y ∧
      R s' t' ∧ Reader.left s' ≤ Reader.left s ∧ Reader.left t' ≤ Reader.left t)

/-- Both fail with the same error, or panic, or both succeed with related results. -/
inductive Both {α β : Type} (Q : α → β → Prop) : Res α → Res β → Prop where
  | ok {a : α} {b : β} (h : Q a b) : Both Q (.ok a) (.ok b)
  | err (e : Err) : Both Q (.err e) (.err e)
  | panic : Both Q .panic .panic

theorem Both.bind {α β α' β' : Type} {Q : α → β → Prop} {Q' : α' → β' → Prop} {a : Res α} {b : Res β}
    {f : α → Res α'} {g : β → Res β'} (h : Both Q a b) (hf : ∀ x y, Q x y → Both Q' (f x) (g y)) :
    Both Q' (a >>= f) (b >>= g) := by
  cases h with
  | ok h => exact hf _ _ h
  | err e => exact .err e
  | panic => exact .panic

theorem Both.same {α α' β' : Type} {Q' : α' → β' → Prop} (a : Res α) {f : α → Res α'} {g : α → Res β'}
    (hf : ∀ x, Both Q' (f x) (g x)) : Both Q' (a >>= f) (a >>= g) := by
  cases a with
  | ok x => exact hf x
  | err e => exact .err e
  | panic => exact .panic

theorem Both.mono {α β : Type} {Q Q' : α → β → Prop} {a : Res α} {b : Res β} (h : Both Q a b)
    (hq : ∀ x y, Q x y → Q' x y) : Both Q' a b := by
  cases h with
  | ok h => exact .ok (hq _ _ h)
  | err e => exact .err e
  | panic => exact .panic

/-- The same value, related readers, and not more left than before. -/
def Went (R : σ → τ → Prop) {α : Type} (s : σ) (t : τ) (p : α × σ) (q : α × τ) : Prop :=
  p.1 = q.1 ∧ R p.2 q.2 ∧ Reader.left p.2 ≤ Reader.left s ∧ Reader.left q.2 ≤ Reader.left t

section

variable {R : σ → τ → Prop} (S : SameLines R)
include S

theorem ls_mergeMsg (f g : Nat) (m : Bytes) (s : σ) (t : τ) (h : R s t) (hf : Reader.left s < f)
    (hg : Reader.left t < g) :
    Both (fun p q => p.1 = q.1 ∧ R p.2 q.2 ∧ Reader.left p.2 < Reader.left s ∧
      Reader.left q.2 < Reader.left t) (mergeMsgLoop f m s) (mergeMsgLoop g m t) := by
  induction f generalizing g m s t with
  | zero => omega
  | succ f ih =>
    cases g with
    | zero => omega
    | succ g =>
      unfold mergeMsgLoop
      rcases S.readLine s t h with ⟨e, h1, h2⟩ | ⟨l, s', t', h1, h2, h3, h4, h5⟩
      · rw [h1, h2]; exact .err e
      · rw [h1, h2]
        simp only
        split
        · exact .ok ⟨rfl, h3, h4, h5⟩
        · exact (ih g _ s' t' h3 (by omega) (by omega)).mono
            fun x y hq => ⟨hq.1, hq.2.1, by omega, by omega⟩

theorem ls_mergeTag (f g : Nat) (o : Tag) (s : σ) (t : τ) (h : R s t) (hf : Reader.left s < f)
    (hg : Reader.left t < g) :
    Both (fun p q => Went R s t p q ∧ (p.1.2 ≠ none → Reader.left p.2 < Reader.left s ∧
      Reader.left q.2 < Reader.left t)) (mergeTagLoop f o s) (mergeTagLoop g o t) := by
  induction f generalizing g o s t with
  | zero => omega
  | succ f ih =>
    cases g with
    | zero => omega
    | succ g =>
      unfold mergeTagLoop
      rcases S.readLine s t h with ⟨e, h1, h2⟩ | ⟨l, s', t', h1, h2, h3, h4, h5⟩
      · rw [h1, h2]
        cases e <;> first
          | exact .err _
          | exact .ok ⟨⟨rfl, h, Nat.le_refl _, Nat.le_refl _⟩, fun h => absurd rfl h⟩
      · rw [h1, h2]
        have go : ∀ o, Both (fun p q => Went R s t p q ∧ (p.1.2 ≠ none →
            Reader.left p.2 < Reader.left s ∧ Reader.left q.2 < Reader.left t))
            (mergeTagLoop f o s') (mergeTagLoop g o t') := fun o =>
          (ih g o s' t' h3 (by omega) (by omega)).mono fun x y hq =>
            ⟨⟨hq.1.1, hq.1.2.1, by have := hq.1.2.2.1; omega, by have := hq.1.2.2.2; omega⟩,
              fun hx => by have := hq.2 hx; omega⟩
        simp only
        split
        · exact .same _ fun _ => go _
        split
        · exact .same _ fun _ => go _
        split
        · exact .same _ fun _ => .same _ fun _ => go _
        split
        · refine (ls_mergeMsg S _ _ [] s' t' h3 (Nat.lt_succ_self _) (Nat.lt_succ_self _)).bind ?_
          rintro ⟨⟨m, r⟩, s2⟩ ⟨⟨m', r'⟩, t2⟩ ⟨he, hR, ha, hb⟩
          cases he
          simp only at ha hb
          exact .ok ⟨⟨rfl, hR, by simp only; omega, by simp only; omega⟩,
            fun _ => ⟨by simp only; omega, by simp only; omega⟩⟩
        · exact go _

theorem ls_sig (f g : Nat) (m : Bytes) (s : σ) (t : τ) (h : R s t) (hf : Reader.left s < f)
    (hg : Reader.left t < g) : Both (Went R s t) (sigLoop f m s) (sigLoop g m t) := by
  induction f generalizing g m s t with
  | zero => omega
  | succ f ih =>
    cases g with
    | zero => omega
    | succ g =>
      unfold sigLoop
      rcases S.readLine s t h with ⟨e, h1, h2⟩ | ⟨l, s', t', h1, h2, h3, h4, h5⟩
      · rw [h1, h2]; exact .err e
      · rw [h1, h2]
        simp only
        split
        · exact .ok ⟨rfl, h3, by simp only; omega, by simp only; omega⟩
        · exact (ih g _ s' t' h3 (by omega) (by omega)).mono
            fun x y hq => ⟨hq.1, hq.2.1, by have := hq.2.2.1; omega, by have := hq.2.2.2; omega⟩

theorem ls_gpgSig (s : σ) (t : τ) (h : R s t) :
    Both (Went R s t) (decodeGpgSig s) (decodeGpgSig t) := by
  unfold decodeGpgSig
  rcases S.readLine s t h with ⟨e, h1, h2⟩ | ⟨l, s', t', h1, h2, h3, h4, h5⟩
  · rw [h1, h2]; exact .err e
  · rw [h1, h2]
    simp only [Res.bind_ok]
    refine .same _ fun x => ?_
    exact (ls_sig S _ _ x s' t' h3 (Nat.lt_succ_self _) (Nat.lt_succ_self _)).mono
      fun x y hq => ⟨hq.1, hq.2.1, by have := hq.2.2.1; omega, by have := hq.2.2.2; omega⟩

end

variable {R : σ → τ → Prop} {P : Bytes → Bytes → Prop} (S : LineSim R P)
include S

/-- Commits that agree in all but the message. -/
def SameHead (P : Bytes → Bytes → Prop) (c d : Commit) : Prop :=
  ∃ m, d = { c with message := m } ∧ P c.message m

/-- Tags that agree in all but the message. -/
def SameTagHead (P : Bytes → Bytes → Prop) (c d : Tag) : Prop :=
  ∃ m, d = { c with message := m } ∧ P c.message m

omit S in
theorem SameHead.upd {P : Bytes → Bytes → Prop} {c d : Commit} (h : SameHead P c d) (f : Commit → Commit)
    (hf : ∀ c m, f { c with message := m } = { f c with message := m })
    (hm : ∀ c, (f c).message = c.message) : SameHead P (f c) (f d) := by
  obtain ⟨m, rfl, hp⟩ := h
  exact ⟨m, hf c m, by rw [hm]; exact hp⟩

theorem ls_commitLine (f g : Nat) (c d : Commit) (l : Bytes) (s : σ) (t : τ) (h : R s t)
    (hc : SameHead P c d) (hf : Reader.left s < f) (hg : Reader.left t < g) :
    Both (fun p q => SameHead P p.1 q.1 ∧ R p.2 q.2 ∧ Reader.left p.2 ≤ Reader.left s ∧
      Reader.left q.2 ≤ Reader.left t) (commitLine f c l s) (commitLine g d l t) := by
  induction f generalizing g c d l s t with
  | zero => omega
  | succ f ih =>
    cases g with
    | zero => omega
    | succ g =>
      have stay : ∀ u : Commit → Commit, (∀ c m, u { c with message := m } = { u c with message := m }) →
          (∀ c, (u c).message = c.message) →
          Both (fun p q => SameHead P p.1 q.1 ∧ R p.2 q.2 ∧ Reader.left p.2 ≤ Reader.left s ∧
            Reader.left q.2 ≤ Reader.left t) (Res.ok (u c, s)) (Res.ok (u d, t)) := fun u h1 h2 =>
        .ok ⟨hc.upd u h1 h2, h, Nat.le_refl _, Nat.le_refl _⟩
      unfold commitLine
      split
      · exact .same _ fun _ => .same _ fun _ => .same _ fun x =>
          stay (fun c => { c with tree := .cid x }) (fun _ _ => rfl) (fun _ => rfl)
      split
      · exact .same _ fun _ => .same _ fun _ => .same _ fun x =>
          stay (fun c => { c with parents := c.parents ++ [.cid x] }) (fun _ _ => rfl) (fun _ => rfl)
      split
      · exact .same _ fun x =>
          stay (fun c => { c with author := some x }) (fun _ _ => rfl) (fun _ => rfl)
      split
      · exact .same _ fun x =>
          stay (fun c => { c with committer := some x }) (fun _ _ => rfl) (fun _ => rfl)
      split
      · exact .same _ fun x =>
          stay (fun c => { c with encoding := some x }) (fun _ _ => rfl) (fun _ => rfl)
      split
      · refine .same _ fun _ => .same _ fun sha => ?_
        unfold readMergeTag
        refine Both.bind (Q := fun p q => Went R s t p q ∧ (p.1.2 ≠ none →
          Reader.left p.2 < Reader.left s ∧ Reader.left q.2 < Reader.left t)) ?_ ?_
        · exact .same _ fun x => ls_mergeTag S.toSameLines _ _ _ s t h (Nat.lt_succ_self _) (Nat.lt_succ_self _)
        · rintro ⟨⟨mt, r⟩, s2⟩ ⟨⟨mt', r'⟩, t2⟩ ⟨⟨he, hR, ha, hb⟩, hlt⟩
          cases he
          have hc' := hc.upd (fun c => { c with mergetag := c.mergetag ++ [mt] }) (fun _ _ => rfl)
            (fun _ => rfl)
          cases r with
          | none => exact .ok ⟨hc', hR, ha, hb⟩
          | some l =>
            have hlt := hlt (by simp)
            simp only at hlt ha hb
            exact (ih g _ _ l s2 t2 hR hc' (by omega) (by omega)).mono fun x y hq =>
              ⟨hq.1, hq.2.1, by have := hq.2.2.1; omega, by have := hq.2.2.2; omega⟩
      split
      · refine (ls_gpgSig S.toSameLines s t h).bind ?_
        rintro ⟨x, s2⟩ ⟨y, t2⟩ ⟨he, hR, ha, hb⟩
        cases he
        exact .ok ⟨hc.upd (fun c => { c with signature := some x }) (fun _ _ => rfl) (fun _ => rfl),
          hR, ha, hb⟩
      split
      · rcases S.readAll s t h with ⟨e, h1, h2⟩ | ⟨x, y, s', t', h1, h2, h3, h4, h5, h6⟩
        · rw [h1, h2]; exact .err e
        · rw [h1, h2]
          obtain ⟨m, rfl, -⟩ := hc
          exact .ok ⟨⟨y, rfl, h3⟩, h4, h5, h6⟩
      · exact stay (fun c => { c with other := c.other ++ [l] }) (fun _ _ => rfl) (fun _ => rfl)

theorem ls_commitLoop (f g : Nat) (c d : Commit) (s : σ) (t : τ) (h : R s t) (hc : SameHead P c d)
    (hf : Reader.left s < f) (hg : Reader.left t < g) :
    Both (SameHead P) (commitLoop f c s) (commitLoop g d t) := by
  induction f generalizing g c d s t with
  | zero => omega
  | succ f ih =>
    cases g with
    | zero => omega
    | succ g =>
      unfold commitLoop
      rcases S.readLine s t h with ⟨e, h1, h2⟩ | ⟨l, s', t', h1, h2, h3, h4, h5⟩
      · rw [h1, h2]
        cases e <;> first | exact .err _ | exact .ok hc
      · rw [h1, h2]
        refine (ls_commitLine S _ _ c d l s' t' h3 hc (Nat.lt_succ_self _) (Nat.lt_succ_self _)).bind ?_
        rintro ⟨c2, s2⟩ ⟨d2, t2⟩ ⟨hc2, hR, ha, hb⟩
        simp only at ha hb
        exact ih g c2 d2 s2 t2 hR hc2 (by omega) (by omega)

theorem ls_tagLine (c d : Tag) (l : Bytes) (s : σ) (t : τ) (h : R s t) (hc : SameTagHead P c d) :
    Both (fun p q => SameTagHead P p.1 q.1 ∧ R p.2 q.2 ∧ Reader.left p.2 ≤ Reader.left s ∧
      Reader.left q.2 ≤ Reader.left t) (tagLine c l s) (tagLine d l t) := by
  obtain ⟨m, rfl, hp⟩ := hc
  unfold tagLine
  split
  · exact .same _ fun _ => .same _ fun _ => .same _ fun x =>
      .ok ⟨⟨m, rfl, hp⟩, h, Nat.le_refl _, Nat.le_refl _⟩
  iterate 3 (
    split
    · exact .same _ fun _ => .ok ⟨⟨m, rfl, hp⟩, h, Nat.le_refl _, Nat.le_refl _⟩)
  split
  · rcases S.readAll s t h with ⟨e, h1, h2⟩ | ⟨x, y, s', t', h1, h2, h3, h4, h5, h6⟩
    · rw [h1, h2]; exact .err e
    · rw [h1, h2]
      exact .ok ⟨⟨y, rfl, h3⟩, h4, h5, h6⟩
  · exact .ok ⟨⟨m, rfl, hp⟩, h, Nat.le_refl _, Nat.le_refl _⟩

theorem ls_tagLoop (f g : Nat) (c d : Tag) (s : σ) (t : τ) (h : R s t) (hc : SameTagHead P c d)
    (hf : Reader.left s < f) (hg : Reader.left t < g) :
    Both (SameTagHead P) (tagLoop f c s) (tagLoop g d t) := by
  induction f generalizing g c d s t with
  | zero => omega
  | succ f ih =>
    cases g with
    | zero => omega
    | succ g =>
      unfold tagLoop
      rcases S.readLine s t h with ⟨e, h1, h2⟩ | ⟨l, s', t', h1, h2, h3, h4, h5⟩
      · rw [h1, h2]
        cases e <;> first | exact .err _ | exact .ok hc
      · rw [h1, h2]
        refine (ls_tagLine S c d l s' t' h3 hc).bind ?_
        rintro ⟨c2, s2⟩ ⟨d2, t2⟩ ⟨hc2, hR, ha, hb⟩
        simp only at ha hb
        exact ih g c2 d2 s2 t2 hR hc2 (by omega) (by omega)

end

end Verif
