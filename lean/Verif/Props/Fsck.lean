import Verif.Spec.Fsck
import Verif.Props.GitRead
import Verif.Props.Person
import Verif.Props.Survive

/-!
# C103 What git fsck says after decoding and encoding
-/

namespace Verif.Props

open Verif Spec

/-! ## Words -/

theorem exists_words (b : Bytes) : ∃ ws : List Bytes, ws ≠ [] ∧ spaces ws = b ∧ ∀ x ∈ ws, SP ∉ x := by
  induction b with
  | nil => exact ⟨[[]], by simp, rfl, by simp⟩
  | cons c b ih =>
    obtain ⟨ws, hne, rfl, h⟩ := ih
    by_cases hc : c = SP
    · subst hc
      refine ⟨[] :: ws, by simp, ?_, ?_⟩
      · cases ws with
        | nil => exact (hne rfl).elim
        | cons x ws => rfl
      · intro x hx
        rcases List.mem_cons.1 hx with rfl | hx
        · simp
        · exact h x hx
    · cases ws with
      | nil => exact (hne rfl).elim
      | cons x ws =>
        refine ⟨(c :: x) :: ws, by simp, ?_, ?_⟩
        · cases ws <;> rfl
        · intro y hy
          rcases List.mem_cons.1 hy with rfl | hy
          · simp only [List.mem_cons, not_or]
            exact ⟨fun h => hc h.symm, h x (by simp)⟩
          · exact h y (List.mem_cons_of_mem _ hy)

theorem spaces_cons (x : Bytes) {ws : List Bytes} (h : ws ≠ []) : spaces (x :: ws) = x ++ SP :: spaces ws := by
  cases ws with
  | nil => exact (h rfl).elim
  | cons y ws => rfl

theorem spaces_app {xs ys : List Bytes} (hx : xs ≠ []) (hy : ys ≠ []) :
    spaces (xs ++ ys) = spaces xs ++ SP :: spaces ys := by
  induction xs with
  | nil => exact (hx rfl).elim
  | cons x xs ih =>
    by_cases hxs : xs = []
    · subst hxs
      exact spaces_cons x hy
    · rw [List.cons_append, spaces_cons x (by simp [hxs]), ih hxs, spaces_cons x hxs]
      simp

theorem mem_spaces {c : UInt8} : ∀ {ws : List Bytes} {x : Bytes}, x ∈ ws → c ∈ x → c ∈ spaces ws
  | [w], x, hx, hc => by
    simp only [List.mem_singleton] at hx
    subst hx; exact hc
  | w :: y :: r, x, hx, hc => by
    show c ∈ w ++ SP :: spaces (y :: r)
    rcases List.mem_cons.1 hx with rfl | hx
    · exact List.mem_append_left _ hc
    · exact List.mem_append_right _ (List.mem_cons_of_mem _ (mem_spaces hx hc))

/-- Empty words in front are spaces in front. -/
theorem spaces_drop {ws : List Bytes} (h : ∀ x ∈ ws, SP ∉ x) :
    spaces (ws.dropWhile (· = [])) = (spaces ws).dropWhile (· = SP) := by
  induction ws with
  | nil => rfl
  | cons x ws ih =>
    have ih := ih fun y hy => h y (List.mem_cons_of_mem _ hy)
    by_cases hx : x = []
    · subst hx
      rw [List.dropWhile_cons_of_pos (by simp), ih]
      cases ws with
      | nil => rfl
      | cons y ws =>
        show _ = (SP :: spaces (y :: ws)).dropWhile _
        rw [List.dropWhile_cons_of_pos (by simp)]
    · rw [List.dropWhile_cons_of_neg (by simpa using hx)]
      obtain ⟨c, x', rfl⟩ : ∃ c x', x = c :: x' := by
        cases x with
        | nil => exact (hx rfl).elim
        | cons c x' => exact ⟨c, x', rfl⟩
      have hc : c ≠ SP := fun hc => h (c :: x') (by simp) (by simp [hc])
      cases ws with
      | nil =>
        show c :: x' = (c :: x').dropWhile _
        rw [List.dropWhile_cons_of_neg (by simpa using hc)]
      | cons y ws =>
        show c :: (x' ++ SP :: spaces (y :: ws)) = (c :: (x' ++ SP :: spaces (y :: ws))).dropWhile _
        rw [List.dropWhile_cons_of_neg (by simpa using hc)]

theorem unopen_id {w : Bytes} (h : LT ∉ w) : unopen w = w := by
  unfold unopen
  rw [if_neg]
  cases w with
  | nil => simp
  | cons c w => simp only [List.head?_cons, Option.some.injEq]; rintro rfl; simp at h

/-! ## Persons -/

/-- What is read from a person of fsck: everything behind the email is words. -/
theorem ident_read (w : Bytes) (hw : SP ∉ w) (name email tail : Bytes) (hn : ∀ c ∈ name, c ≠ LT ∧ c ≠ GT ∧ c ≠ LF)
    (he : ∀ c ∈ email, c ≠ LT ∧ c ≠ GT ∧ c ≠ LF) (after : List Bytes) (ha : after ≠ []) (hs : ∀ x ∈ after, SP ∉ x)
    (ht : spaces after = tail) :
    PersonRead (w ++ SP :: (name ++ b!" <" ++ email ++ b!"> " ++ tail))
      ⟨name.dropWhile (· = SP), email, after.head?.getD [], after.tail.head?.getD []⟩ := by
  obtain ⟨ns, hn1, rfl, hn3⟩ := exists_words name
  obtain ⟨es, he1, rfl, he3⟩ := exists_words email
  have hlt : ∀ x ∈ es, LT ∉ x := fun x hx hc => (he _ (mem_spaces hx hc)).1 rfl
  have hgt : ∀ x ∈ es, GT ∉ x := fun x hx hc => (he _ (mem_spaces hx hc)).2.1 rfl
  have hnl : ∀ x ∈ ns, LT ∉ x := fun x hx hc => (hn _ (mem_spaces hx hc)).1 rfl
  subst ht
  have hline : ∀ (em : List Bytes) (en : Bytes), spaces (em ++ en :: after) = LT :: (spaces es ++ (GT :: SP :: spaces after)) →
      w ++ SP :: (spaces ns ++ b!" <" ++ spaces es ++ b!"> " ++ spaces after) = spaces (w :: (ns ++ (em ++ en :: after))) := by
    intro em en h
    rw [spaces_cons _ (by simp), spaces_app hn1 (by simp), h]
    simp [LT, GT, SP]
  have hmem : ∀ (em : List Bytes) (en : Bytes), (∀ x ∈ em ++ [en], SP ∉ x) →
      ∀ x ∈ w :: (ns ++ (em ++ en :: after)), SP ∉ x := by
    intro em en h x hx
    simp only [List.mem_cons, List.mem_append] at hx
    rcases hx with rfl | hx | hx | rfl | hx
    · exact hw
    · exact hn3 x hx
    · exact h x (by simp [hx])
    · exact h x (by simp)
    · exact hs x hx
  have hlen : ∀ (em : List Bytes) (en : Bytes), 2 ≤ (ns ++ (em ++ en :: after)).length := by
    intro em en
    have : 0 < ns.length := List.length_pos_iff.2 hn1
    simp only [List.length_append, List.length_cons]
    omega
  have hnh : ∀ x ∈ ns, x.head? ≠ some LT := by
    intro x hx h
    exact hnl x hx (List.mem_of_mem_head? h)
  rcases List.eq_nil_or_concat es with rfl | ⟨init, last, rfl⟩
  · exact (he1 rfl).elim
  rw [List.concat_eq_append] at *
  have hlast : LT ∉ last := hlt last (by simp)
  cases init with
  | nil =>
    refine ⟨w, ns, [], LT :: (last ++ [GT]), last, after, hline _ _ ?_, hmem _ _ ?_, hlen _ _, hnh, rfl, by simp, rfl,
      (spaces_drop hn3).symm, rfl, rfl, rfl⟩
    · rw [List.nil_append, spaces_cons _ ha]
      simp [spaces]
    · intro x hx
      simp only [List.nil_append, List.mem_singleton] at hx
      subst hx
      simp only [List.mem_cons, List.mem_append, List.not_mem_nil, or_false, not_or]
      exact ⟨by decide, he3 last (by simp), by decide⟩
  | cons e0 mid =>
    refine ⟨w, ns, (LT :: e0) :: mid, last ++ [GT], last, after, hline _ _ ?_, hmem _ _ ?_, hlen _ _, hnh, rfl, ?_, ?_,
      (spaces_drop hn3).symm, ?_, rfl, rfl⟩
    · rw [spaces_app (by simp) (by simp), spaces_app (by simp) (by simp), spaces_cons _ ha]
      have : spaces ((LT :: e0) :: mid) = LT :: spaces (e0 :: mid) := by cases mid <;> rfl
      rw [this]
      simp [spaces]
    · intro x hx
      simp only [List.cons_append, List.mem_cons, List.mem_append, List.not_mem_nil, or_false] at hx
      rcases hx with rfl | hx | rfl
      · simp only [List.mem_cons, not_or]
        exact ⟨by decide, he3 e0 (by simp)⟩
      · exact he3 x (by simp [hx])
      · simp only [List.mem_append, List.mem_singleton, not_or]
        exact ⟨he3 last (by simp), by decide⟩
    · intro x hx h
      rcases List.mem_cons.1 hx with rfl | hx
      · exact hgt e0 (by simp) (List.mem_of_getLast? (by simpa [unopen] using h))
      · rw [unopen_id (hlt x (by simp [hx]))] at h
        exact hgt x (by simp [hx]) (List.mem_of_getLast? h)
    · rw [unopen_id]
      simp only [List.mem_append, List.mem_singleton, not_or]
      exact ⟨hlast, by decide⟩
    · have h1 : mid.map unopen = mid := by
        have : ∀ x ∈ mid, unopen x = x := fun x hx => unopen_id (hlt x (by simp [hx]))
        rw [List.map_congr_left this, List.map_id']
      show spaces (e0 :: mid ++ [last]) = spaces (List.map unopen ((LT :: e0) :: mid) ++ [last])
      rw [List.map_cons, h1]
      rfl

theorem canonical_digits {d : Bytes} {n : Nat} (h : Canonical d n) : d ≠ [] ∧ ∀ c ∈ d, Digit c := ⟨h.1, h.2.1⟩

theorem digit_ne {c : UInt8} (h : Digit c) : c ≠ SP ∧ c ≠ 0x09 ∧ c ≠ 43 ∧ c ≠ 45 ∧ c ≠ GT ∧ c ≠ LT ∧ c ≠ LF ∧ c ≠ CR ∧ c ≠ NUL := by
  unfold Digit at h
  refine ⟨?_, ?_, ?_, ?_, ?_, ?_, ?_, ?_, ?_⟩ <;> (rintro rfl; revert h; decide)

theorem tz_word {i : Ident} (h : i.Ok) : SP ∉ i.tz ∧ ∃ c, i.tz.head? = some c ∧ (c = 43 ∨ c = 45) := by
  obtain ⟨sign, ds, h1, h2, h3, h4⟩ := h.tz
  rw [h1]
  refine ⟨?_, sign, rfl, h2⟩
  simp only [List.mem_cons, not_or]
  refine ⟨?_, fun hm => (digit_ne (h4 _ hm)).1 rfl⟩
  rcases h2 with rfl | rfl <;> decide

theorem date_word {i : Ident} (h : i.Ok) : SP ∉ i.date ∧ i.date ≠ [] := by
  obtain ⟨n, hn, _⟩ := h.date
  exact ⟨fun hm => (digit_ne (hn.2.1 _ hm)).1 rfl, hn.1⟩

/-- Without a further space in the gap, the person keeps its form. -/
theorem ident_kept (w : Bytes) (hw : SP ∉ w) (i : Ident) (h : i.Ok) (hg : SP ∉ i.gap) :
    ∃ p, PersonRead (w ++ SP :: i.text) p ∧
      personText p = ({ i with name := i.name.dropWhile (· = SP) } : Ident).text := by
  have ht := tz_word h
  have hd := date_word h
  have hr := ident_read w hw i.name i.email (i.gap ++ i.date ++ b!" " ++ i.tz) h.name h.email
    [i.gap ++ i.date, i.tz] (by simp) ?_ (by simp [spaces, SP])
  · refine ⟨⟨i.name.dropWhile (· = SP), i.email, i.gap ++ i.date, i.tz⟩, ?_, ?_⟩
    · have e : i.text = i.name ++ b!" <" ++ i.email ++ b!"> " ++ (i.gap ++ i.date ++ b!" " ++ i.tz) := by
        simp [Ident.text]
      rw [e]
      exact hr
    · have h1 : i.gap ++ i.date ≠ [] := by simp [hd.2]
      have h2 : i.tz ≠ [] := by rintro h0; simp [h0] at ht
      simp only [personText, if_neg h1, if_neg h2, Ident.text]
      simp [SP]
  · intro x hx
    simp only [List.mem_cons, List.not_mem_nil, or_false] at hx
    rcases hx with rfl | rfl
    · simp only [List.mem_append, not_or]
      exact ⟨hg, hd.1⟩
    · exact ht.1

/-- The words behind the last space. -/
theorem last_word {a b x y : Bytes} (h : a ++ SP :: x = b ++ SP :: y) (hx : SP ∉ x) (hy : SP ∉ y) : x = y := by
  have h1 := congrArg List.reverse h
  simp only [List.reverse_append, List.reverse_cons, List.append_assoc, List.singleton_append] at h1
  have h2 := splitAt_notin SP x.reverse a.reverse (by simpa using hx)
  rw [h1, splitAt_notin SP y.reverse _ (by simpa using hy)] at h2
  simp only [Option.some.injEq, Prod.mk.injEq] at h2
  simpa using h2.1.symm

theorem split_first {c : UInt8} {a b x y : Bytes} (h : a ++ c :: x = b ++ c :: y) (ha : c ∉ a) (hb : c ∉ b) :
    a = b ∧ x = y := by
  have h2 := splitAt_notin c a x ha
  rw [h, splitAt_notin c b y hb] at h2
  simp only [Option.some.injEq, Prod.mk.injEq] at h2
  exact ⟨h2.1.symm, h2.2.symm⟩

/-- With a further space in the gap, what is written is no person for fsck. -/
theorem ident_lost (w : Bytes) (hw : SP ∉ w) (i : Ident) (h : i.Ok) (hg : SP ∈ i.gap) :
    ∃ p, PersonRead (w ++ SP :: i.text) p ∧ ¬ FsckIdent (personText p) := by
  obtain ⟨g1, g2, hgap, hg1⟩ := first_of hg
  have hd := date_word h
  obtain ⟨n, hn, _⟩ := h.date
  obtain ⟨ys, hy1, hy2, hy3⟩ := exists_words (g2 ++ i.date ++ b!" " ++ i.tz)
  obtain ⟨y, ys, rfl⟩ := List.exists_cons_of_ne_nil hy1
  have hysp : SP ∉ y := hy3 y (by simp)
  have hr := ident_read w hw i.name i.email (i.gap ++ i.date ++ b!" " ++ i.tz) h.name h.email
    (g1 :: y :: ys) (by simp) ?_ (by rw [spaces_cons _ (by simp), hy2, hgap]; simp)
  · refine ⟨⟨i.name.dropWhile (· = SP), i.email, g1, y⟩, ?_, ?_⟩
    · have e : i.text = i.name ++ b!" <" ++ i.email ++ b!"> " ++ (i.gap ++ i.date ++ b!" " ++ i.tz) := by
        simp [Ident.text]
      rw [e]
      exact hr
    · rintro ⟨j, hj, e⟩
      have hyh : ∀ c, y.head? = some c → c = 0x09 ∨ Digit c := by
        intro c hc
        have hc' : (g2 ++ i.date ++ b!" " ++ i.tz).head? = some c := by
          rw [← hy2]
          cases y with
          | nil => cases hc
          | cons a y => cases ys <;> exact hc
        have hcs : c ≠ SP := fun h0 => hysp (h0 ▸ List.mem_of_mem_head? hc)
        cases g2 with
        | cons a g2 =>
          simp only [List.cons_append, List.head?_cons, Option.some.injEq] at hc'
          subst hc'
          rcases h.gap a (by rw [hgap]; simp) with h0 | h0
          · exact (hcs h0).elim
          · exact .inl h0
        | nil =>
          obtain ⟨a, d, hd'⟩ := List.exists_cons_of_ne_nil hn.1
          rw [hd'] at hc'
          simp only [List.nil_append, List.cons_append, List.head?_cons, Option.some.injEq] at hc'
          subst hc'
          exact .inr (hn.2.1 a (by simp [hd']))
      have hjt := tz_word hj
      have hjn : LT ∉ j.name ++ [SP] := by
        simp only [List.mem_append, List.mem_singleton, not_or]
        exact ⟨fun hm => (hj.name _ hm).1 rfl, by decide⟩
      have hin : LT ∉ i.name.dropWhile (· = SP) ++ [SP] := by
        simp only [List.mem_append, List.mem_singleton, not_or]
        exact ⟨fun hm => (h.name _ ((List.dropWhile_suffix _).subset hm)).1 rfl, by decide⟩
      have e1 : (i.name.dropWhile (· = SP) ++ [SP]) ++ LT :: (i.email ++ GT ::
            ((if g1 = [] then [] else SP :: g1) ++ (if y = [] then [] else SP :: y))) =
          (j.name ++ [SP]) ++ LT :: (j.email ++ GT :: (SP :: (j.gap ++ j.date ++ SP :: j.tz))) := by
        simpa [personText, Ident.text, LT, GT, SP] using e
      have e2 := (split_first e1 hin hjn).2
      have e3 := (split_first e2 (fun hm => (h.email _ hm).2.1 rfl) (fun hm => (hj.email _ hm).2.1 rfl)).2
      by_cases hy : y = []
      · by_cases hgn : g1 = []
        · simp [hy, hgn] at e3
        · simp only [hy, hgn, if_true, if_false, List.append_nil, List.cons.injEq, true_and] at e3
          exact hg1 (e3 ▸ by simp)
      · by_cases hgn : g1 = []
        · simp only [hy, hgn, if_true, if_false, List.nil_append, List.cons.injEq, true_and] at e3
          exact hysp (e3 ▸ by simp)
        · simp only [hy, hgn, if_false, List.cons_append, List.cons.injEq, true_and] at e3
          have e4 := last_word e3 hysp hjt.1
          obtain ⟨c, hc, hs⟩ := hjt.2
          have := hyh c (e4 ▸ hc)
          rcases hs with rfl | rfl <;> rcases this with h0 | h0 <;> revert h0 <;> (try unfold Digit) <;> decide
  · intro x hx
    rcases List.mem_cons.1 hx with rfl | hx
    · exact hg1
    · exact hy3 x hx

/-- fsck finds nothing wrong with what is written for a person exactly if there was
a single space before its date, or tabs follow the first. -/
theorem fsck_person (w : Bytes) (hw : SP ∉ w) (i : Ident) (h : i.Ok) :
    ∃ p, parsePersonInfo (w ++ SP :: i.text) = .ok p ∧ (FsckIdent (personText p) ↔ SP ∉ i.gap) ∧
      (SP ∉ i.gap → personText p = ({ i with name := i.name.dropWhile (· = SP) } : Ident).text) := by
  by_cases hg : SP ∈ i.gap
  · obtain ⟨p, hp, hn⟩ := ident_lost w hw i h hg
    exact ⟨p, (person_accepts _ _).2 hp, ⟨fun h' => (hn h').elim, fun h' => (h' hg).elim⟩, fun h' => (h' hg).elim⟩
  · obtain ⟨p, hp, he⟩ := ident_kept w hw i h hg
    refine ⟨p, (person_accepts _ _).2 hp, ⟨fun _ => hg, fun _ => ⟨_, ?_, he⟩⟩, fun _ => he⟩
    exact { h with name := fun c hc => h.name c ((List.dropWhile_suffix _).subset hc) }

/-! ## No NUL -/

theorem line_mem {N : Nat} {b l r : Bytes} (h : Line N b l r) : (∀ c ∈ l, c ∈ b) ∧ ∀ c ∈ r, c ∈ b := by
  cases h <;> refine ⟨fun c hc => ?_, fun c hc => ?_⟩ <;> simp_all

theorem sigBody_mem {N : Nat} {b r : Bytes} {ls : List Bytes} (h : SigBody N b ls r) :
    (∀ l ∈ ls, ∀ c ∈ l, c ∈ b) ∧ ∀ c ∈ r, c ∈ b := by
  induction h with
  | stop b r h => exact ⟨by simp, (line_mem h).2⟩
  | more b l r r' ls h hne hr ih =>
    refine ⟨fun x hx c hc => ?_, fun c hc => (line_mem h).2 c (ih.2 c hc)⟩
    rcases List.mem_cons.1 hx with rfl | hx
    · exact (line_mem h).1 c hc
    · exact (line_mem h).2 c (ih.1 x hx c hc)

theorem mergeHead_mem {N : Nat} {b r : Bytes} {ls : List Bytes} (h : MergeHead N b ls r) :
    (∀ l ∈ ls, ∀ c ∈ l, c ∈ b) ∧ ∀ c ∈ r, c ∈ b := by
  induction h with
  | stop b r h => exact ⟨by simp, (line_mem h).2⟩
  | more b l r r' ls h hne hr ih =>
    refine ⟨fun x hx c hc => ?_, fun c hc => (line_mem h).2 c (ih.2 c hc)⟩
    rcases List.mem_cons.1 hx with rfl | hx
    · exact (line_mem h).1 c hc
    · exact (line_mem h).2 c (ih.1 x hx c hc)

theorem mergeCut_mem {N : Nat} {b : Bytes} {ls : List Bytes} (h : MergeCut N b ls) :
    ∀ l ∈ ls, ∀ c ∈ l, c ∈ b := by
  induction h with
  | stop => simp
  | more b l r ls h hne hr ih =>
    intro x hx c hc
    rcases List.mem_cons.1 hx with rfl | hx
    · exact (line_mem h).1 c hc
    · exact (line_mem h).2 c (ih x hx c hc)

theorem mergeMsg_mem {N : Nat} {b r : Bytes} {ls : List Bytes} (h : MergeMsg N b ls r) :
    (∀ l ∈ ls, ∀ c ∈ l, c ∈ b) ∧ ∀ c ∈ r, c ∈ b := by
  induction h with
  | stop b l r h => exact ⟨by simp, fun _ h => h⟩
  | more b l r r' ls h hne hr ih =>
    refine ⟨fun x hx c hc => ?_, fun c hc => (line_mem h).2 c (ih.2 c hc)⟩
    rcases List.mem_cons.1 hx with rfl | hx
    · exact (line_mem h).1 c hc
    · exact (line_mem h).2 c (ih.1 x hx c hc)

/-- The bytes of a block. -/
def blockBytes : Spec.Block → Bytes
  | .line l => l
  | .sig ls => ls.flatten
  | .merge x ls msg => x ++ ls.flatten ++ (msg.getD []).flatten

theorem blocks_mem {N : Nat} {b : Bytes} {bs : List Spec.Block} {m : Option Bytes} (h : Blocks N b bs m) :
    (∀ k ∈ bs, ∀ c ∈ blockBytes k, c ∈ b) ∧ ∀ c ∈ m.getD [], c ∈ b := by
  induction h with
  | done => simp
  | blank b r h => exact ⟨by simp, (line_mem h).2⟩
  | line b l r bs m h hne hm hg hr ih =>
    refine ⟨fun x hx c hc => ?_, fun c hc => (line_mem h).2 c (ih.2 c hc)⟩
    rcases List.mem_cons.1 hx with rfl | hx
    · exact (line_mem h).1 c hc
    · exact (line_mem h).2 c (ih.1 x hx c hc)
  | sig b l r r' ls bs m h hg hl hr ih =>
    have h2 := sigBody_mem hl
    refine ⟨fun x hx c hc => ?_, fun c hc => (line_mem h).2 c (h2.2 c (ih.2 c hc))⟩
    rcases List.mem_cons.1 hx with rfl | hx
    · obtain ⟨l, hl, hc⟩ := List.mem_flatten.1 hc
      exact (line_mem h).2 c (h2.1 l hl c hc)
    · exact (line_mem h).2 c (h2.2 c (ih.1 x hx c hc))
  | merge b x r r1 r2 ls msg bs m h hh hl hr ih =>
    have h2 := mergeHead_mem hh
    have h3 := mergeMsg_mem hl
    refine ⟨fun y hy c hc => ?_, fun c hc => (line_mem h).2 c (h2.2 c (h3.2 c (ih.2 c hc)))⟩
    rcases List.mem_cons.1 hy with rfl | hy
    · simp only [blockBytes, List.mem_append, Option.getD_some] at hc
      rcases hc with (hc | hc) | hc
      · exact (line_mem h).1 c (List.mem_append_right _ hc)
      · obtain ⟨l, hl, hc⟩ := List.mem_flatten.1 hc
        exact (line_mem h).2 c (h2.1 l hl c hc)
      · obtain ⟨l, hl, hc⟩ := List.mem_flatten.1 hc
        exact (line_mem h).2 c (h2.2 c (h3.1 l hl c hc))
    · exact (line_mem h).2 c (h2.2 c (h3.2 c (ih.1 y hy c hc)))
  | cut b x r ls h hh =>
    refine ⟨fun y hy c hc => ?_, by simp⟩
    obtain rfl := List.mem_singleton.1 hy
    simp only [blockBytes, List.mem_append, Option.getD_none, List.flatten_nil, List.not_mem_nil, or_false] at hc
    rcases hc with hc | hc
    · exact (line_mem h).1 c (List.mem_append_right _ hc)
    · obtain ⟨l, hl, hc⟩ := List.mem_flatten.1 hc
      exact (line_mem h).2 c (mergeCut_mem hh l hl c hc)

theorem spaces_mem {ws : List Bytes} {c : UInt8} (h : c ∈ spaces ws) : c = SP ∨ ∃ x ∈ ws, c ∈ x := by
  induction ws with
  | nil => cases h
  | cons w ws ih =>
    cases ws with
    | nil => exact .inr ⟨w, by simp, h⟩
    | cons x r =>
      simp only [spaces, List.mem_append, List.mem_cons] at h
      rcases h with h | h | h
      · exact .inr ⟨w, by simp, h⟩
      · exact .inl h
      · rcases ih h with h | ⟨y, hy, hc⟩
        · exact .inl h
        · exact .inr ⟨y, by simp at hy; simp [hy], hc⟩

theorem person_mem {line : Bytes} {p : PersonInfo} (h : PersonRead line p) :
    ∀ c ∈ personText p, c ∈ line ∨ c = SP ∨ c = LT ∨ c = GT := by
  obtain ⟨w, name, email, end_, e, after, rfl, _, _, _, _, _, h7, h8, h9, h10, h11⟩ := h
  have hin : ∀ x ∈ w :: (name ++ (email ++ end_ :: after)), ∀ c ∈ x,
      c ∈ spaces (w :: (name ++ (email ++ end_ :: after))) := fun x hx c hc => mem_spaces hx hc
  have hun : ∀ (x : Bytes) (c : UInt8), c ∈ unopen x → c ∈ x := by
    intro x c hc
    unfold unopen at hc
    split at hc
    · exact List.mem_of_mem_tail hc
    · exact hc
  have hname : ∀ c ∈ p.name, c ∈ spaces (w :: (name ++ (email ++ end_ :: after))) ∨ c = SP := by
    intro c hc
    rw [h8] at hc
    rcases spaces_mem hc with h | ⟨x, hx, hc⟩
    · exact .inr h
    · have := (List.dropWhile_suffix _).subset hx
      exact .inl (hin x (by simp [this]) c hc)
  have hemail : ∀ c ∈ p.email, c ∈ spaces (w :: (name ++ (email ++ end_ :: after))) ∨ c = SP := by
    intro c hc
    rw [h9] at hc
    rcases spaces_mem hc with h | ⟨x, hx, hcx⟩
    · exact .inr h
    · rcases List.mem_append.1 hx with hx | hx
      · obtain ⟨y, hy, rfl⟩ := List.mem_map.1 hx
        exact .inl (hin y (by simp [hy]) c (hun y c hcx))
      · obtain rfl := List.mem_singleton.1 hx
        exact .inl (hin end_ (by simp) c (hun _ _ (by rw [h7]; simp [hcx])))
  have hdate : ∀ c ∈ p.date, c ∈ spaces (w :: (name ++ (email ++ end_ :: after))) := by
    intro c hc
    rw [h10] at hc
    cases after with
    | nil => cases hc
    | cons x r => exact hin x (by simp) c hc
  have htz : ∀ c ∈ p.timezone, c ∈ spaces (w :: (name ++ (email ++ end_ :: after))) := by
    intro c hc
    rw [h11] at hc
    cases after with
    | nil => cases hc
    | cons x r =>
      cases r with
      | nil => cases hc
      | cons y r => exact hin y (by simp) c hc
  intro c hc
  simp only [personText, List.mem_append] at hc
  rcases hc with ((((hc | hc) | hc) | hc) | hc) | hc
  · rcases hname c hc with h | h
    · exact .inl h
    · exact .inr (.inl h)
  · simp only [List.mem_cons, List.not_mem_nil, or_false] at hc
    rcases hc with h | h
    · exact .inr (.inl h)
    · exact .inr (.inr (.inl h))
  · rcases hemail c hc with h | h
    · exact .inl h
    · exact .inr (.inl h)
  · exact .inr (.inr (.inr (List.mem_singleton.1 hc)))
  · split at hc
    · cases hc
    · rcases List.mem_cons.1 hc with h | h
      · exact .inr (.inl h)
      · exact .inl (hdate c h)
  · split at hc
    · cases hc
    · rcases List.mem_cons.1 hc with h | h
      · exact .inr (.inl h)
      · exact .inl (htz c h)

theorem person_nul {line : Bytes} {p : PersonInfo} (h : PersonRead line p) (hn : NUL ∉ line) : NUL ∉ personText p := by
  intro hc
  rcases person_mem h _ hc with h | h | h | h
  · exact hn h
  all_goals exact absurd h (by decide)

theorem hex_nul (b : Bytes) : NUL ∉ hex b := by
  rw [hex_eq]
  intro h
  have := hexEncode_ge b _ h
  revert this
  decide

theorem unlines_nul {ls : List Bytes} (h : ∀ l ∈ ls, NUL ∉ l) : NUL ∉ unlines ls := by
  intro hc
  obtain ⟨l, hl, hc⟩ := List.mem_flatMap.1 hc
  simp only [List.mem_append, List.mem_singleton] at hc
  rcases hc with hc | hc
  · exact h l hl hc
  · exact absurd hc (by decide)

theorem lastPerson_nul {xs : List Bytes} {p : PersonInfo} (h : LastValue PersonRead xs ⟨[], [], [], []⟩ p)
    (hx : ∀ x ∈ xs, NUL ∉ x) : NUL ∉ personText p := by
  rcases lastValue_cases h with rfl | ⟨x, hm, h⟩
  · decide
  · exact person_nul h (hx x hm)

theorem behindLast_nul {w : Bytes} {ls : List Bytes} (h : ∀ l ∈ ls, NUL ∉ l) : NUL ∉ (behind w ls).getLast?.getD [] := by
  rcases getLast?_getD_mem (behind w ls) [] with h' | h'
  · rw [h']; simp
  · exact fun hc => h _ (behind_mem h') (List.mem_append_right _ hc)

/-- A commit read from a text without NUL is written without NUL. -/
theorem commit_nul {N : Nat} {body : Bytes} (hb : NUL ∉ body) {bs : List Spec.Block} {m : Option Bytes}
    (hB : Blocks N body bs m) {c : Commit} (hc : CommitMeans bs m c) {a k : PersonInfo} (ha : c.author = some a)
    (hk : c.committer = some k) : NUL ∉ Spec.commitBody c a k := by
  have hm := blocks_mem hB
  have hblk : ∀ x ∈ bs, NUL ∉ blockBytes x := fun x hx h => hb (hm.1 x hx _ h)
  have hpl : ∀ l ∈ plainLines bs, NUL ∉ l := by
    intro l hl
    obtain ⟨x, hx, he⟩ := List.mem_filterMap.1 hl
    cases x <;> simp at he
    subst he
    exact hblk _ hx
  have hper : ∀ (w : Bytes) (ps : List PersonInfo) (p : PersonInfo),
      Pairs PersonRead (linesWith w (plainLines bs)) ps → some p = ps.getLast? → NUL ∉ personText p := by
    intro w ps p hp he
    obtain ⟨x, hx, hr⟩ := Verif.pairs_mem hp p (List.mem_of_getLast? he.symm)
    exact person_nul hr (hpl x (linesWith_mem hx))
  have hA : NUL ∉ personText a := by
    obtain ⟨ps, hp, he⟩ := hc.author
    exact hper _ ps a hp (ha ▸ he)
  have hK : NUL ∉ personText k := by
    obtain ⟨ps, hp, he⟩ := hc.committer
    exact hper _ ps k hp (hk ▸ he)
  have hE : NUL ∉ encodingText c.encoding := by
    cases he : c.encoding with
    | none => simp [encodingText]
    | some e =>
      have := hc.encoding
      rw [he] at this
      refine unlines_nul fun l hl => ?_
      obtain rfl := List.mem_singleton.1 hl
      exact hpl _ (behind_mem (List.mem_of_getLast? this.symm))
  have hM : NUL ∉ c.mergetag.flatMap mergeTagText := by
    intro h
    obtain ⟨t, ht, h⟩ := List.mem_flatMap.1 h
    obtain ⟨x, hx, hr⟩ := Verif.pairs_mem hc.mergetag t ht
    obtain ⟨y, hy, he⟩ := List.mem_filterMap.1 hx
    cases y with
    | line l => simp at he
    | sig ls => simp at he
    | merge r ls msg =>
      simp only [Option.some.injEq] at he
      subst he
      have hn := hblk _ hy
      simp only [blockBytes, List.mem_append, not_or] at hn
      have hls : ∀ l ∈ ls, NUL ∉ l := fun l hl h => hn.1.2 (List.mem_flatten.2 ⟨l, hl, h⟩)
      have h1 := behindLast_nul (w := b!" type ") hls
      have h2 := behindLast_nul (w := b!" tag ") hls
      have h3 : NUL ∉ personText t.tagger := lastPerson_nul hr.tagger fun x hx h => by
        obtain ⟨y, hy, rfl⟩ := List.mem_map.1 hx
        exact hls y (linesWith_mem hy) (List.mem_of_mem_drop h)
      have h4 : NUL ∉ t.message := by
        rw [hr.message]
        exact unlines_nul fun l hl h => hn.2 (List.mem_flatten.2 ⟨l, hl, h⟩)
      rw [← hr.typ] at h1
      rw [← hr.tag] at h2
      simp only [mergeTagText, mergeTagBlock, List.mem_append] at h
      rcases h with h | h
      · revert h
        refine unlines_nul fun l hl => ?_
        simp only [List.mem_cons, List.not_mem_nil, or_false] at hl
        have := hex_nul (digest t.object)
        rcases hl with rfl | rfl | rfl | rfl | rfl <;> simp_all [NUL]
      · exact h4 h
  have hG : NUL ∉ sigText c.signature := by
    cases hg : c.signature with
    | none => simp [sigText]
    | some g =>
      have := hc.signature.2
      rw [hg] at this
      cases hl : (signatures bs).getLast? with
      | none => simp [hl] at this
      | some ls =>
        simp only [hl, Option.map_some, Option.some.injEq] at this
        obtain ⟨x, hx, he⟩ := List.mem_filterMap.1 (List.mem_of_getLast? hl)
        cases x <;> simp at he
        subst he
        have hn := hblk _ hx
        have hgn : NUL ∉ g := this ▸ unlines_nul fun l hl h => hn (List.mem_flatten.2 ⟨l, hl, h⟩)
        simp only [sigText, List.mem_append, not_or]
        exact ⟨⟨by decide, hgn⟩, by decide⟩
  have hO : NUL ∉ unlines c.other := by
    refine unlines_nul fun l hl => ?_
    rw [hc.other] at hl
    exact hpl l (List.mem_filter.1 hl).1
  have hMsg : NUL ∉ c.message := by
    rw [hc.message]
    exact fun h => hb (hm.2 _ h)
  have hT : NUL ∉ unlines [b!"tree " ++ hex (digest c.tree)] := unlines_nul fun l hl => by
    obtain rfl := List.mem_singleton.1 hl
    have := hex_nul (digest c.tree)
    simp_all [NUL]
  have hP : NUL ∉ unlines (c.parents.map fun p => b!"parent " ++ hex (digest p)) := unlines_nul fun l hl => by
    obtain ⟨p, _, rfl⟩ := List.mem_map.1 hl
    have := hex_nul (digest p)
    simp_all [NUL]
  have hAK : NUL ∉ unlines [b!"author " ++ personText a, b!"committer " ++ personText k] := unlines_nul fun l hl => by
    simp only [List.mem_cons, List.not_mem_nil, or_false] at hl
    rcases hl with rfl | rfl <;> simp_all [NUL]
  simp only [Spec.commitBody, List.mem_append, not_or]
  exact ⟨⟨⟨⟨⟨⟨⟨⟨hT, hP⟩, hAK⟩, hE⟩, hM⟩, hG⟩, hO⟩, by decide⟩, hMsg⟩

/-! ## Commits -/

/-- Nothing, or a text whose last byte is LF. -/
def EndsLF (b : Bytes) : Prop := b = [] ∨ b.getLast? = some LF

theorem endsLF_app {a b : Bytes} (ha : EndsLF a) (hb : EndsLF b) : EndsLF (a ++ b) := by
  rcases hb with rfl | hb
  · simpa using ha
  · right; simp [List.getLast?_append, hb]

theorem endsLF_unlines (ls : List Bytes) : EndsLF (unlines ls) := by
  induction ls with
  | nil => exact .inl rfl
  | cons l ls ih =>
    have : unlines (l :: ls) = (l ++ [LF]) ++ unlines ls := by simp [unlines]
    rw [this]
    exact endsLF_app (.inr (by simp)) ih

theorem endsLF_flatMap {α : Type} (f : α → Bytes) (xs : List α) (h : ∀ x ∈ xs, EndsLF (f x)) : EndsLF (xs.flatMap f) := by
  induction xs with
  | nil => exact .inl rfl
  | cons x xs ih =>
    rw [List.flatMap_cons]
    exact endsLF_app (h x (by simp)) (ih fun y hy => h y (by simp [hy]))

/-- What follows the committer, up to the message. -/
def afterCommitter (c : Commit) : Bytes :=
  encodingText c.encoding ++ c.mergetag.flatMap mergeTagText ++ sigText c.signature ++ unlines c.other

theorem afterCommitter_ends {bs : List Spec.Block} {m : Option Bytes} {c : Commit} (hc : CommitMeans bs m c) :
    EndsLF (afterCommitter c) := by
  refine endsLF_app (endsLF_app (endsLF_app ?_ (endsLF_flatMap _ _ fun t ht => ?_)) ?_) (endsLF_unlines _)
  · cases c.encoding
    · exact .inl rfl
    · exact endsLF_unlines _
  · obtain ⟨x, _, hr⟩ := Verif.pairs_mem hc.mergetag t ht
    exact endsLF_app (endsLF_unlines _) (hr.message ▸ endsLF_unlines _)
  · cases c.signature with
    | none => exact .inl rfl
    | some g =>
      right
      have e : sigText (some g) = (sigBegin ++ LF :: (g ++ sigEnd)) ++ [LF] := by simp [sigText, unlines]
      rw [e, List.getLast?_concat]

theorem commitBody_shape (c : Commit) (a k : PersonInfo) : Spec.commitBody c a k =
    b!"tree " ++ hex (digest c.tree) ++ LF :: (parentLines (c.parents.map fun p => hex (digest p)) ++
      (b!"author " ++ personText a ++ LF :: (b!"committer " ++ personText k ++ LF ::
        (afterCommitter c ++ LF :: c.message)))) := by
  simp [Spec.commitBody, parentLines, unlines, afterCommitter, List.flatMap_map]

theorem body_terminated {pre X m : Bytes} (hX : EndsLF X) : Terminated (pre ++ LF :: (X ++ LF :: m)) := by
  left
  rcases hX with rfl | hX
  · exact ⟨pre, m, by simp⟩
  · obtain ⟨Y, hY⟩ := List.getLast?_eq_some_iff.1 hX
    exact ⟨pre ++ LF :: Y, m, by simp [hY]⟩

theorem ident_noLF {x : Bytes} (h : FsckIdent x) : LF ∉ x := by
  obtain ⟨i, h, rfl⟩ := h
  obtain ⟨n, hn, _⟩ := h.date
  obtain ⟨sign, ds, h1, h2, _, h4⟩ := h.tz
  have a1 : LF ∉ i.name := fun hm => (h.name _ hm).2.2 rfl
  have a2 : LF ∉ i.email := fun hm => (h.email _ hm).2.2 rfl
  have a3 : LF ∉ i.gap := fun hm => by rcases h.gap _ hm with h | h <;> exact absurd h (by decide)
  have a4 : LF ∉ i.date := fun hm => (digit_ne (hn.2.1 _ hm)).2.2.2.2.2.2.1 rfl
  have a5 : LF ∉ i.tz := by
    rw [h1]
    simp only [List.mem_cons, not_or]
    exact ⟨by rcases h2 with rfl | rfl <;> decide, fun hm => (digit_ne (h4 _ hm)).2.2.2.2.2.2.1 rfl⟩
  simp only [Ident.text, List.mem_append, not_or]
  exact ⟨⟨⟨⟨⟨⟨⟨a1, by decide⟩, a2⟩, by decide⟩, a3⟩, a4⟩, by decide⟩, a5⟩

theorem ref_noLF {x t : Bytes} (h : Ref x t) : LF ∉ x := fun hm => by
  have := hexOf_ge h.1 _ hm
  revert this
  decide

theorem parents_split {hs hs' : List Bytes} (h : ∀ x ∈ hs, LF ∉ x) (h' : ∀ x ∈ hs', LF ∉ x) {u v : Bytes}
    (e : parentLines hs ++ (b!"author " ++ u) = parentLines hs' ++ (b!"author " ++ v)) : hs = hs' ∧ u = v := by
  induction hs generalizing hs' with
  | nil =>
    cases hs' with
    | nil => simpa [parentLines, unlines] using e
    | cons y hs' => simp [parentLines, unlines] at e
  | cons x hs ih =>
    cases hs' with
    | nil => simp [parentLines, unlines] at e
    | cons y hs' =>
      have e' : x ++ LF :: (parentLines hs ++ (b!"author " ++ u)) = y ++ LF :: (parentLines hs' ++ (b!"author " ++ v)) := by
        simpa [parentLines, unlines] using e
      obtain ⟨rfl, e2⟩ := split_first e' (h x (by simp)) (h' y (by simp))
      obtain ⟨rfl, rfl⟩ := ih (fun z hz => h z (by simp [hz])) (fun z hz => h' z (by simp [hz])) e2
      exact ⟨rfl, rfl⟩

theorem pairs_ref_noLF {hs ps : List Bytes} (h : Pairs Ref hs ps) : ∀ x ∈ hs, LF ∉ x := by
  induction hs generalizing ps with
  | nil => simp
  | cons x hs ih =>
    cases ps with
    | nil => exact h.elim
    | cons p ps =>
      intro y hy
      rcases List.mem_cons.1 hy with rfl | hy
      · exact ref_noLF h.1
      · exact ih h.2 y hy

theorem hex_noLF (b : Bytes) : LF ∉ hex b := by
  rw [hex_eq]
  intro h
  have := hexEncode_ge b _ h
  revert this
  decide

theorem pairs_hex {ls : List Link} (h : ∀ l ∈ ls, IsGitLink l) :
    Pairs Ref (ls.map fun p => hex (digest p)) (ls.map digest) := by
  induction ls with
  | nil => trivial
  | cons l ls ih =>
    obtain ⟨sha, hs, rfl⟩ := h l (by simp)
    exact ⟨ref_hex _ hs, ih fun x hx => h x (by simp [hx])⟩

/-- What is written for a commit read from a text without NUL is accepted by fsck
exactly if it has a tree, and fsck finds nothing wrong with what is written for
the persons. -/
theorem fsck_commit_exact {s : Stream} (hN : 2 ≤ s.bufsz) {c : Commit} (h : parseObject s = .ok (.commit c))
    {d body : Bytes} (hd : NUL ∉ d) (hs : s.rest = b!"commit " ++ d ++ NUL :: body) (hnul : NUL ∉ body)
    {a k : PersonInfo} (ha : c.author = some a) (hk : c.committer = some k) :
    ∃ out, encObj (.commit c) = .ok (withHeader b!"commit" out) ∧
      ((∃ t ps x y rest, FsckReads out t ps x y rest) ↔
        IsGitLink c.tree ∧ FsckIdent (personText a) ∧ FsckIdent (personText k)) ∧
      (IsGitLink c.tree → FsckIdent (personText a) → FsckIdent (personText k) →
        ∃ rest, FsckReads out (digest c.tree) (c.parents.map digest) (personText a) (personText k) rest) := by
  obtain ⟨bs, m, hb, hc⟩ := commit_body hN h hd hs
  have htree := gitOrNil_last hc.tree
  have hpar : ∀ p ∈ c.parents, IsGitLink p := fun p hp => by
    obtain ⟨x, _, hr⟩ := Verif.pairs_mem hc.parents p hp
    exact refLink_git hr
  have hmt : ∀ t ∈ c.mergetag, IsGitLink t.object := fun t ht => by
    obtain ⟨x, _, hr⟩ := Verif.pairs_mem hc.mergetag t ht
    exact refLink_git hr.object
  have hpl : ∀ l ∈ plainLines bs, LF ∉ l := fun l hl => (blocks_ok hb _ (mem_plainLines hl)).1
  have hper : ∀ (w : Bytes) (ps : List PersonInfo) (p : PersonInfo),
      Pairs PersonRead (linesWith w (plainLines bs)) ps → some p = ps.getLast? → LF ∉ personText p := by
    intro w ps p hp he
    obtain ⟨x, hx, hr⟩ := Verif.pairs_mem hp p (List.mem_of_getLast? he.symm)
    exact personRead_noLF hr (hpl x (linesWith_mem hx))
  have hA : LF ∉ personText a := by
    obtain ⟨ps, hp, he⟩ := hc.author
    exact hper _ ps a hp (ha ▸ he)
  have hK : LF ∉ personText k := by
    obtain ⟨ps, hp, he⟩ := hc.committer
    exact hper _ ps k hp (hk ▸ he)
  have hout : IsGitLink c.tree → FsckIdent (personText a) → FsckIdent (personText k) →
      ∃ rest, FsckReads (Spec.commitBody c a k) (digest c.tree) (c.parents.map digest) (personText a) (personText k) rest := by
    rintro ⟨sha, hl, ht⟩ ha' hk'
    refine ⟨afterCommitter c ++ LF :: c.message, hex (digest c.tree), c.parents.map fun p => hex (digest p), ?_,
      pairs_hex hpar, ha', hk', commitBody_shape c a k, commit_nul hnul hb hc ha hk, ?_⟩
    · rw [ht]; exact ref_hex _ hl
    · have e : ∀ X : Bytes, b!"tree " ++ hex (digest c.tree) ++ LF :: (parentLines (c.parents.map fun p => hex (digest p)) ++
          (b!"author " ++ personText a ++ LF :: (b!"committer " ++ personText k ++ LF :: X))) =
          (b!"tree " ++ hex (digest c.tree) ++ LF :: (parentLines (c.parents.map fun p => hex (digest p)) ++
            (b!"author " ++ personText a ++ LF :: (b!"committer " ++ personText k)))) ++ LF :: X := by
        intro X; simp
      rw [commitBody_shape, e]
      exact body_terminated (afterCommitter_ends hc)
  refine ⟨Spec.commitBody c a k, encCommit_text c a k htree hpar ha hk hmt, ⟨?_, ?_⟩, hout⟩
  · rintro ⟨t, ps, x, y, rest, h, hs', hr, hp, hx, hy, he, _⟩
    rw [commitBody_shape] at he
    have he1 : hex (digest c.tree) ++ LF :: (parentLines (c.parents.map fun p => hex (digest p)) ++
        (b!"author " ++ (personText a ++ LF :: (b!"committer " ++ personText k ++ LF ::
        (afterCommitter c ++ LF :: c.message))))) =
        h ++ LF :: (parentLines hs' ++ (b!"author " ++ (x ++ LF :: (b!"committer " ++ y ++ LF :: rest)))) := by
      simpa using he
    obtain ⟨e1, e2⟩ := split_first he1 (hex_noLF _) (ref_noLF hr)
    obtain ⟨_, e3⟩ := parents_split (fun z hz => by obtain ⟨p, _, rfl⟩ := List.mem_map.1 hz; exact hex_noLF _)
      (pairs_ref_noLF hp) e2
    obtain ⟨rfl, e4⟩ := split_first e3 hA (ident_noLF hx)
    have e5 : personText k ++ LF :: (afterCommitter c ++ LF :: c.message) = y ++ LF :: rest := by simpa using e4
    obtain ⟨rfl, _⟩ := split_first e5 hK (ident_noLF hy)
    refine ⟨?_, hx, hy⟩
    rcases htree with ht | ht
    · exact ht
    · rw [ht] at e1
      have := hexOf_length hr.1
      rw [← e1, hr.2] at this
      exact absurd this (by decide)
  · rintro ⟨h1, h2, h3⟩
    obtain ⟨rest, hr⟩ := hout h1 h2 h3
    exact ⟨_, _, _, _, _, hr⟩

theorem git_parents_lines {hs ps : List Bytes} (h : Pairs Ref hs ps) {u : Bytes} (hu : ¬ b!"parent " <+: u) :
    GitParents (parentLines hs ++ u) ps u := by
  induction hs generalizing ps with
  | nil =>
    cases ps with
    | nil => exact .stop _ (.inl hu)
    | cons => exact h.elim
  | cons x hs ih =>
    cases ps with
    | nil => exact h.elim
    | cons p ps =>
      have e : parentLines (x :: hs) ++ u = b!"parent " ++ x ++ LF :: (parentLines hs ++ u) := by
        simp [parentLines, unlines]
      rw [e]
      exact .more x p _ _ ps h.1 (ih h.2)

theorem ident_line {N : Nat} {w : Bytes} (hw : LF ∉ w) (i : Ident) (h : i.Ok) (hl : (w ++ i.text).length < N) :
    HeaderLine N (w ++ i.text) := by
  refine ⟨?_, ?_, hl⟩
  · simp only [List.mem_append, not_or]
    exact ⟨hw, ident_noLF ⟨i, h, rfl⟩⟩
  · obtain ⟨sign, ds, h1, _, h3, h4⟩ := h.tz
    intro hc
    have hne : ds ≠ [] := by rintro rfl; simp at h3
    have hlast : (w ++ i.text).getLast? = ds.getLast? := by
      have e : w ++ i.text = (w ++ i.name ++ b!" <" ++ i.email ++ b!"> " ++ i.gap ++ i.date ++ b!" " ++ [sign]) ++ ds := by
        simp [Ident.text, h1]
      rw [e, List.getLast?_append]
      cases hds : ds.getLast? with
      | none => simp at hds; exact (hne hds).elim
      | some c => rfl
    rw [hlast] at hc
    exact (digit_ne (h4 _ (List.mem_of_getLast? hc))).2.2.2.2.2.2.2.1 rfl

/-- A commit that fsck accepts is written so that fsck accepts it exactly if neither
person has more than one space before its date, if no later header line gives
another person. Without a later tree or parent it has the same tree and
parents. -/
theorem fsck_commit {s : Stream} (hN : 48 ≤ s.bufsz) {c : Commit} (h : parseObject s = .ok (.commit c))
    {d body : Bytes} (hd : NUL ∉ d) (hs : s.rest = b!"commit " ++ d ++ NUL :: body) {i j : Ident} (hi : i.Ok) (hj : j.Ok)
    {t rest : Bytes} {ps : List Bytes} (hf : FsckReads body t ps i.text j.text rest)
    (hli : (b!"author " ++ i.text).length < s.bufsz) (hlj : (b!"committer " ++ j.text).length < s.bufsz) :
    ∃ bs m, Blocks s.bufsz rest bs m ∧
      (linesWith b!"author " (plainLines bs) = [] → linesWith b!"committer " (plainLines bs) = [] →
        ∃ out, encObj (.commit c) = .ok (withHeader b!"commit" out) ∧
          ((∃ t ps x y rest, FsckReads out t ps x y rest) ↔ SP ∉ i.gap ∧ SP ∉ j.gap) ∧
          (SP ∉ i.gap → SP ∉ j.gap → behind b!"tree " (plainLines bs) = [] → behind b!"parent " (plainLines bs) = [] →
            ∃ rest', FsckReads out t ps ({ i with name := i.name.dropWhile (· = SP) } : Ident).text
              ({ j with name := j.name.dropWhile (· = SP) } : Ident).text rest')) := by
  obtain ⟨x, hs', hx, hp, _, _, hbody, hnul, _⟩ := hf
  obtain ⟨B, m, hB, hc⟩ := commit_body (by omega) h hd hs
  have hg : GitCommit body t ps (b!"author " ++ i.text ++ LF :: (b!"committer " ++ j.text ++ LF :: rest)) :=
    ⟨x, _, hx, hbody, git_parents_lines hp (by simp [List.cons_prefix_cons])⟩
  have hB' := hB
  rw [hbody] at hB'
  obtain ⟨B1, rfl, hB1⟩ := blocks_line (by omega) (line_ref hN b!"tree " x t _ (by decide) (by decide) hx)
    (by simp) (by simp [List.cons_prefix_cons]) (by simp [List.cons_prefix_cons]) hB'
  obtain ⟨hs2, B2, hp2, rfl, hB2⟩ := git_parents_blocks hN
    (git_parents_lines hp (u := b!"author " ++ i.text ++ LF :: (b!"committer " ++ j.text ++ LF :: rest))
      (by simp [List.cons_prefix_cons])) hB1
  obtain ⟨B3, rfl, hB3⟩ := blocks_line (by omega) (line_header (ident_line (by decide) i hi hli) _)
    (by simp) (by simp [List.cons_prefix_cons]) (by simp [List.cons_prefix_cons]) hB2
  obtain ⟨bs, rfl, hbs⟩ := blocks_line (by omega) (line_header (ident_line (by decide) j hj hlj) _)
    (by simp) (by simp [List.cons_prefix_cons]) (by simp [List.cons_prefix_cons]) hB3
  refine ⟨bs, m, hbs, fun hna hnk => ?_⟩
  have e : plainLines (Spec.Block.line (b!"tree " ++ x) :: (hs2.map (fun h => Spec.Block.line (b!"parent " ++ h)) ++
      Spec.Block.line (b!"author " ++ i.text) :: Spec.Block.line (b!"committer " ++ j.text) :: bs)) =
      [b!"tree " ++ x] ++ (hs2.map (b!"parent " ++ ·) ++ ([b!"author " ++ i.text, b!"committer " ++ j.text] ++ plainLines bs)) := by
    have := plain_parents hs2 (Spec.Block.line (b!"author " ++ i.text) :: Spec.Block.line (b!"committer " ++ j.text) :: bs)
    show (b!"tree " ++ x) :: plainLines _ = _
    rw [this]
    rfl
  have hpp : ∀ w : Bytes, w.head? ≠ some 112 → w ≠ [] → linesWith w (hs2.map (b!"parent " ++ ·)) = [] := by
    intro w hw hne
    refine linesWith_nil fun l hl hpf => ?_
    obtain ⟨z, _, rfl⟩ := List.mem_map.1 hl
    obtain ⟨ch, w, rfl⟩ := List.exists_cons_of_ne_nil hne
    have := (List.cons_prefix_cons.1 hpf).1
    exact hw (by simp [this])
  have hauth : ∀ u v : Bytes, linesWith b!"author " [b!"author " ++ u, b!"committer " ++ v] = [b!"author " ++ u] := by
    intro u v; simp [linesWith]
  have hcomm : ∀ u v : Bytes, linesWith b!"committer " [b!"author " ++ u, b!"committer " ++ v] = [b!"committer " ++ v] := by
    intro u v; simp [linesWith]
  obtain ⟨pa, hpa, hpa2, hpa3⟩ := fsck_person b!"author" (by decide) i hi
  obtain ⟨pk, hpk, hpk2, hpk3⟩ := fsck_person b!"committer" (by decide) j hj
  have hone : ∀ (l : Bytes) (qs : List PersonInfo) (p : PersonInfo), Pairs PersonRead [l] qs →
      parsePersonInfo l = .ok p → qs.getLast? = some p := by
    intro l qs p hq hl
    match qs, hq with
    | [q], hq =>
      have := (person_accepts _ _).2 hq.1
      rw [hl] at this
      simp [Res.ok.inj this]
  have ha : c.author = some pa := by
    obtain ⟨qs, hq, he⟩ := hc.author
    rw [e, linesWith_append, linesWith_append, linesWith_append, hna, hauth, hpp _ (by decide) (by decide)] at hq
    have : linesWith b!"author " [b!"tree " ++ x] = [] := by simp [linesWith]
    rw [this] at hq
    rw [he]
    exact hone _ qs pa hq hpa
  have hk : c.committer = some pk := by
    obtain ⟨qs, hq, he⟩ := hc.committer
    rw [e, linesWith_append, linesWith_append, linesWith_append, hnk, hcomm, hpp _ (by decide) (by decide)] at hq
    have : linesWith b!"committer " [b!"tree " ++ x] = [] := by simp [linesWith]
    rw [this] at hq
    rw [he]
    exact hone _ qs pk hq hpk
  obtain ⟨out, h1, h2, h3⟩ := fsck_commit_exact (by omega) h hd hs hnul ha hk
  obtain ⟨B0, m0, hB0, ⟨ls, hls, hpar⟩, hlt⟩ := git_refs hN h hd hs hg
  obtain ⟨rfl, rfl⟩ := blocks_unique (by omega) hB0 hB2
  have htree : IsGitLink c.tree := by
    rcases lastValue_cases hlt with h0 | ⟨z, _, hz⟩
    · rw [h0]; exact ⟨t, hx.2, rfl⟩
    · exact refLink_git hz
  refine ⟨out, h1, ?_, ?_⟩
  · rw [h2, hpa2, hpk2]
    exact ⟨fun hh => hh.2, fun hh => ⟨htree, hh⟩⟩
  · intro g1 g2 n1 n2
    have e0 : ∀ w, behind w (plainLines (Spec.Block.line (b!"author " ++ i.text) ::
        Spec.Block.line (b!"committer " ++ j.text) :: bs)) =
        behind w [b!"author " ++ i.text, b!"committer " ++ j.text] ++ behind w (plainLines bs) := fun w =>
      behind_app w [b!"author " ++ i.text, b!"committer " ++ j.text] (plainLines bs)
    have e1 : behind b!"tree " [b!"author " ++ i.text, b!"committer " ++ j.text] = [] := by simp [behind, linesWith]
    have e2 : behind b!"parent " [b!"author " ++ i.text, b!"committer " ++ j.text] = [] := by simp [behind, linesWith]
    rw [e0, n2, e2] at hls
    rw [e0, n1, e1] at hlt
    have hls0 : ls = [] := (pairs_nil hls).1 rfl
    have ht0 : c.tree = gitLink t := (lastValue_iff hlt).2 (by simp)
    obtain ⟨r', hr'⟩ := h3 htree (hpa2.2 g1) (hpk2.2 g2)
    refine ⟨r', ?_⟩
    rw [ht0, hpar, hls0, hpa3 g1, hpk3 g2] at hr'
    have e3 : (ps.map gitLink ++ []).map digest = ps := by
      rw [List.append_nil, List.map_map]
      exact (List.map_congr_left (g := id) fun _ _ => rfl).trans (List.map_id _)
    rw [e3] at hr'
    exact hr'

/-! ## Tags -/

theorem head_message {N : Nat} (hN : 2 ≤ N) {msg : Option Bytes} {ls : List Bytes} {m : Option Bytes}
    (h : Head N (messageText msg) ls m) : ls = [] ∧ m = msg := by
  cases msg with
  | none => exact head_unique hN h .done
  | some x => exact head_unique hN h (.blank _ _ (blank_line hN x))

/-- No person is written as `tagger  <>`, which fsck refuses. -/
theorem nobody_lost : ¬ FsckIdent (personText ⟨[], [], [], []⟩) := by
  rintro ⟨i, h, e⟩
  have := congrArg List.length e
  obtain ⟨sign, ds, h1, _, h3, _⟩ := h.tz
  simp [personText, Ident.text, h1, h3] at this
  omega

/-- A tag that fsck accepts is written so that fsck accepts it exactly if it has a
tagger, with a single space before its date. -/
theorem fsck_tag {s : Stream} (hN : 48 ≤ s.bufsz) {g : Tag} (h : parseObject s = .ok (.tag g)) {d body : Bytes}
    (hd : NUL ∉ d) (hs : s.rest = b!"tag " ++ d ++ NUL :: body) {o ty name : Bytes} {tagger : Option Ident}
    {msg : Option Bytes} (ht : ∀ i, tagger = some i → i.Ok) (hf : FsckTag body o ty name (tagger.map Ident.text) msg)
    (hn : HeaderLine s.bufsz (b!"tag " ++ name)) (hl : ∀ i, tagger = some i → (b!"tagger " ++ i.text).length < s.bufsz) :
    ∃ out, encObj (.tag g) = .ok (withHeader b!"tag" out) ∧
      ((∃ o ty name p msg, FsckTag out o ty name p msg) ↔ ∃ i, tagger = some i ∧ SP ∉ i.gap) ∧
      (∀ i, tagger = some i → SP ∉ i.gap → FsckTag out o ty name
        (some ({ i with name := i.name.dropWhile (· = SP) } : Ident).text) (if msg.getD [] = [] then none else msg)) := by
  obtain ⟨x, hx, hty, hnl, _, hbody, hnul, _⟩ := hf
  obtain ⟨_, d', body', ls, m, hd', hs', hb, hm⟩ := (tag_accepts s (by omega) g).1 h
  rw [hs] at hs'
  simp only [List.append_assoc, List.append_cancel_left_eq] at hs'
  obtain ⟨_, rfl⟩ := split_first hs' hd hd'
  have hl2 : HeaderLine s.bufsz (b!"type " ++ ty) := by
    simp only [List.mem_cons, List.not_mem_nil, or_false] at hty
    rcases hty with rfl | rfl | rfl | rfl <;> exact ⟨by decide, by decide, by simp; omega⟩
  have htyn : LF ∉ ty := fun hc => hl2.noLF (List.mem_append_right _ hc)
  have hb0 := hb
  rw [hbody] at hb0
  obtain ⟨l1, rfl, hb1⟩ := head_line (by omega) (line_ref hN b!"object " x o _ (by decide) (by decide) hx) (by simp) hb0
  obtain ⟨l2, rfl, hb2⟩ := head_line (by omega) (line_header hl2 _) (by simp) hb1
  obtain ⟨l3, rfl, hb3⟩ := head_line (by omega) (line_header hn _) (by simp) hb2
  -- the tagger, if any, is the only further line
  have hlines : l3 = (tagger.map fun i => b!"tagger " ++ i.text).toList ∧ m = msg := by
    cases tagger with
    | none => exact head_message (by omega) hb3
    | some i =>
      have e : ((Option.map Ident.text (some i)).map fun p => b!"tagger " ++ p ++ [LF]).getD [] ++ messageText msg =
          (b!"tagger " ++ i.text) ++ LF :: messageText msg := by simp
      rw [e] at hb3
      obtain ⟨l4, rfl, hb4⟩ := head_line (by omega) (line_header (ident_line (by decide) i (ht i rfl) (hl i rfl)) _)
        (by simp) hb3
      obtain ⟨rfl, rfl⟩ := head_message (by omega) hb4
      exact ⟨rfl, rfl⟩
  obtain ⟨rfl, rfl⟩ := hlines
  have hbeh : ∀ w, behind w ((b!"object " ++ x) :: (b!"type " ++ ty) :: (b!"tag " ++ name) ::
        (tagger.map fun i => b!"tagger " ++ i.text).toList) =
      behind w [b!"object " ++ x, b!"type " ++ ty, b!"tag " ++ name] ++
        behind w (tagger.map fun i => b!"tagger " ++ i.text).toList := fun w =>
    behind_app w [b!"object " ++ x, b!"type " ++ ty, b!"tag " ++ name] _
  have e1 : behind b!"object " [b!"object " ++ x, b!"type " ++ ty, b!"tag " ++ name] = [x] := by simp [behind, linesWith]
  have e2 : behind b!"type " [b!"object " ++ x, b!"type " ++ ty, b!"tag " ++ name] = [ty] := by simp [behind, linesWith]
  have e3 : behind b!"tag " [b!"object " ++ x, b!"type " ++ ty, b!"tag " ++ name] = [name] := by simp [behind, linesWith]
  have f1 : behind b!"object " (tagger.map fun i => b!"tagger " ++ i.text).toList = [] := by
    cases tagger <;> simp [behind, linesWith]
  have f2 : behind b!"type " (tagger.map fun i => b!"tagger " ++ i.text).toList = [] := by
    cases tagger <;> simp [behind, linesWith]
  have f3 : behind b!"tag " (tagger.map fun i => b!"tagger " ++ i.text).toList = [] := by
    cases tagger <;> simp [behind, linesWith]
  have hobj : g.object = gitLink o := by
    have := hm.object
    rw [hbeh, e1, f1, List.append_nil] at this
    exact (lastValue_iff (lastValue_first ⟨o, hx, rfl⟩ this)).2 (by simp)
  have htyp : g.typ = ty := by
    have := hm.typ
    rwa [hbeh, e2, f2, List.append_nil] at this
  have htag : g.tag = name := by
    have := hm.tag
    rwa [hbeh, e3, f3, List.append_nil] at this
  have htl : LastValue PersonRead ((tagger.map fun i => b!"tagger " ++ i.text).toList) ⟨[], [], [], []⟩ g.tagger := by
    have := hm.tagger
    have e : linesWith b!"tagger " ((b!"object " ++ x) :: (b!"type " ++ ty) :: (b!"tag " ++ name) ::
        (tagger.map fun i => b!"tagger " ++ i.text).toList) = (tagger.map fun i => b!"tagger " ++ i.text).toList := by
      cases tagger <;> simp [linesWith]
    rwa [e] at this
  have hline : ∀ i, tagger = some i → parsePersonInfo (b!"tagger " ++ i.text) = .ok g.tagger := by
    rintro i rfl
    obtain ⟨ys, hp, he⟩ := htl
    match ys, hp with
    | [y], hp => rw [he]; exact (person_accepts _ _).2 hp.1
  have hnobody : tagger = none → g.tagger = ⟨[], [], [], []⟩ := by
    rintro rfl
    obtain ⟨ys, hp, he⟩ := htl
    match ys, hp with
    | [], _ => exact he
  have hgapp : ∀ i, tagger = some i → (FsckIdent (personText g.tagger) ↔ SP ∉ i.gap) ∧
      (SP ∉ i.gap → personText g.tagger = ({ i with name := i.name.dropWhile (· = SP) } : Ident).text) := by
    intro i hi
    obtain ⟨p, hp, h1, h2⟩ := fsck_person b!"tagger" (by decide) i (ht i hi)
    have := hline i hi
    have e : b!"tagger " ++ i.text = b!"tagger" ++ SP :: i.text := rfl
    rw [e, hp] at this
    obtain rfl := Res.ok.inj this
    exact ⟨h1, h2⟩
  have hmsgn : NUL ∉ g.message := by
    rw [hm.message]
    intro hc
    apply hnul
    rw [hbody]
    cases m with
    | none => cases hc
    | some y => simp only [Option.getD_some] at hc; simp [messageText, hc]
  have hshape : encObj (.tag g) = .ok (withHeader b!"tag" (b!"object " ++ hex o ++ LF :: (b!"type " ++ ty ++ LF ::
      (b!"tag " ++ name ++ LF :: (b!"tagger " ++ personText g.tagger ++ LF ::
        messageText (if m.getD [] = [] then none else m)))))) := by
    rw [encTag_text g (hobj ▸ .inl ⟨o, hx.2, rfl⟩), htyp, htag, hobj, hm.message]
    have : digest (gitLink o) = o := rfl
    rw [this]
    cases m <;> simp [unlines, messageText]
  have hout : ∀ i, tagger = some i → SP ∉ i.gap → FsckTag (b!"object " ++ hex o ++ LF :: (b!"type " ++ ty ++ LF ::
      (b!"tag " ++ name ++ LF :: (b!"tagger " ++ personText g.tagger ++ LF ::
        messageText (if m.getD [] = [] then none else m))))) o ty name
        (some ({ i with name := i.name.dropWhile (· = SP) } : Ident).text) (if m.getD [] = [] then none else m) := by
    intro i hi hg
    obtain ⟨h1, h2⟩ := hgapp i hi
    have hper : NUL ∉ personText g.tagger := by
      refine lastPerson_nul htl fun y hy hc => hnul ?_
      rw [hi] at hy
      simp only [Option.map_some, Option.toList_some, List.mem_singleton] at hy
      subst hy
      rcases List.mem_append.1 hc with hc | hc
      · exact absurd hc (by decide)
      · rw [hbody, hi]
        simp [hc]
    refine ⟨hex o, ref_hex _ hx.2, hty, hnl, ?_, ?_, ?_, ?_⟩
    · rintro p hp
      obtain rfl := Option.some.inj hp
      rw [← h2 hg]
      exact h1.2 hg
    · rw [h2 hg]
      simp
    · have n1 : NUL ∉ ty := fun hc => hnul (by rw [hbody]; simp [hc])
      have n2 : NUL ∉ name := fun hc => hnul (by rw [hbody]; simp [hc])
      have n3 := hex_nul o
      have n4 : NUL ∉ messageText (if m.getD [] = [] then none else m) := by
        rw [hm.message] at hmsgn
        cases m with
        | none => simp [messageText]
        | some y =>
          simp only [Option.getD_some] at hmsgn ⊢
          split
          · simp [messageText]
          · simp only [messageText, List.mem_cons, not_or]
            exact ⟨by decide, hmsgn⟩
      simp only [List.mem_append, List.mem_cons, not_or]
      refine ⟨⟨by decide, n3⟩, by decide, ⟨by decide, n1⟩, by decide, ⟨by decide, n2⟩, by decide, ⟨by decide, hper⟩, by decide, n4⟩
    · by_cases h0 : m.getD [] = []
      · right
        rw [if_pos h0]
        have e : b!"object " ++ hex o ++ LF :: (b!"type " ++ ty ++ LF :: (b!"tag " ++ name ++ LF ::
            (b!"tagger " ++ personText g.tagger ++ LF :: messageText none))) =
            (b!"object " ++ hex o ++ LF :: (b!"type " ++ ty ++ LF :: (b!"tag " ++ name ++ LF ::
            (b!"tagger " ++ personText g.tagger)))) ++ [LF] := by simp [messageText]
        rw [e, List.getLast?_concat]
      · left
        rw [if_neg h0]
        cases m with
        | none => simp at h0
        | some y =>
          exact ⟨b!"object " ++ hex o ++ LF :: (b!"type " ++ ty ++ LF :: (b!"tag " ++ name ++ LF ::
            (b!"tagger " ++ personText g.tagger))), y, by simp [messageText]⟩
  refine ⟨_, hshape, ⟨?_, ?_⟩, ?_⟩
  · rintro ⟨o', ty', name', p, msg', x', hx', hty', hn', hp', he, _⟩
    have he1 : hex o ++ LF :: (b!"type " ++ ty ++ LF ::
      (b!"tag " ++ name ++ LF :: (b!"tagger " ++ personText g.tagger ++ LF ::
        messageText (if m.getD [] = [] then none else m)))) = x' ++ LF :: (b!"type " ++ ty' ++ LF :: (b!"tag " ++ name' ++ LF ::
      ((p.map fun p => b!"tagger " ++ p ++ [LF]).getD [] ++ messageText msg'))) := by simpa using he
    obtain ⟨_, he2⟩ := split_first he1 (hex_noLF _) (ref_noLF hx')
    have hty'n : LF ∉ ty' := by
      simp only [List.mem_cons, List.not_mem_nil, or_false] at hty'
      rcases hty' with rfl | rfl | rfl | rfl <;> decide
    obtain ⟨_, he3⟩ := split_first he2 (by simp [htyn, LF]) (by simp [hty'n, LF])
    have he4 : name ++ LF :: (b!"tagger " ++ personText g.tagger ++ LF ::
        messageText (if m.getD [] = [] then none else m)) =
      name' ++ LF :: ((p.map fun p => b!"tagger " ++ p ++ [LF]).getD [] ++ messageText msg') := by simpa using he3
    obtain ⟨_, he5⟩ := split_first he4 hnl hn'
    cases p with
    | none => cases msg' <;> simp [messageText, LF] at he5
    | some p =>
      have he6 : personText g.tagger ++ LF :: messageText (if m.getD [] = [] then none else m) =
          p ++ LF :: messageText msg' := by simpa using he5
      have hpi := hp' p rfl
      have hg : LF ∉ personText g.tagger := by
        rcases lastValue_cases htl with h0 | ⟨y, hy, hr⟩
        · rw [h0]; decide
        · refine personRead_noLF hr ?_
          cases tagger with
          | none => simp at hy
          | some i =>
            simp only [Option.map_some, Option.toList_some, List.mem_singleton] at hy
            subst hy
            exact (ident_line (N := s.bufsz) (by decide) i (ht i rfl) (hl i rfl)).noLF
      obtain ⟨rfl, _⟩ := split_first he6 hg (ident_noLF hpi)
      cases tagger with
      | none => rw [hnobody rfl] at hpi; exact (nobody_lost hpi).elim
      | some i => exact ⟨i, rfl, (hgapp i rfl).1.1 hpi⟩
  · rintro ⟨i, hi, hg⟩
    exact ⟨_, _, _, _, _, hout i hi hg⟩
  · exact hout

/-! ## Examples -/

namespace FsckExample

open GitReadExample (refA ref_a)

def who : Ident := ⟨b!"A U Thor", b!"a@b", [], b!"1234", b!"+0100"⟩

theorem who_ok : who.Ok where
  name := by decide
  email := by decide
  gap := by decide
  date := ⟨1234, ⟨by decide, by unfold Digit; decide, by decide, by decide⟩, by decide⟩
  tz := ⟨43, b!"0100", rfl, .inl rfl, rfl, by unfold Digit; decide⟩

/-- Two spaces before the date. -/
def gapped : Ident := { who with gap := b!" " }

theorem gapped_ok : gapped.Ok := { who_ok with gap := by decide }

example : parsePersonInfo (b!"author " ++ gapped.text) = .ok ⟨b!"A U Thor", b!"a@b", [], b!"1234"⟩ := by decide +kernel

example : SP ∈ gapped.gap ∧ SP ∉ who.gap := by decide

def body : Bytes := b!"tree " ++ refA ++ LF :: (b!"author " ++ gapped.text ++ LF :: (b!"committer " ++ who.text ++ b!"\n\nhi\n"))

/-- fsck accepts this commit. -/
theorem body_ok : FsckReads body (List.replicate 20 0xaa) [] gapped.text who.text b!"\nhi\n" :=
  ⟨refA, [], ref_a, trivial, ⟨_, gapped_ok, rfl⟩, ⟨_, who_ok, rfl⟩, by decide +kernel, by decide +kernel,
    .inr (by decide +kernel)⟩

/-- It is read, and written with the date for a timezone. -/
example : ∃ c, parseObject (σ := Stream) ⟨b!"commit 0" ++ NUL :: body, .eof, 4096⟩ = .ok (.commit c) ∧
    encObj (.commit c) = .ok (withHeader b!"commit" (b!"tree " ++ refA ++ b!"\nauthor A U Thor <a@b> 1234\ncommitter " ++
      who.text ++ b!"\n\nhi\n")) := by
  refine ⟨⟨gitLink (List.replicate 20 0xaa), [], b!"hi\n", some ⟨b!"A U Thor", b!"a@b", [], b!"1234"⟩,
    some ⟨b!"A U Thor", b!"a@b", b!"1234", b!"+0100"⟩, none, none, [], []⟩, ?_, ?_⟩ <;> decide +kernel

def tagText : Bytes := b!"object " ++ refA ++ b!"\ntype commit\ntag v1\n"

/-- fsck accepts a tag without tagger. -/
theorem tag_ok : FsckTag tagText (List.replicate 20 0xaa) b!"commit" b!"v1" none none :=
  ⟨refA, ref_a, by simp, by decide, by simp, by decide +kernel, by decide +kernel, .inr (by decide +kernel)⟩

example : ∃ t, parseObject (σ := Stream) ⟨b!"tag 0" ++ NUL :: tagText, .eof, 4096⟩ = .ok (.tag t) ∧
    encObj (.tag t) = .ok (withHeader b!"tag" (tagText ++ b!"tagger  <>\n")) := by
  refine ⟨⟨gitLink (List.replicate 20 0xaa), b!"commit", b!"v1", ⟨[], [], [], []⟩, []⟩, ?_, ?_⟩ <;> decide +kernel

end FsckExample

end Verif.Props
