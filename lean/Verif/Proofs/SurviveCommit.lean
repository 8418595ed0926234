import Verif.Proofs.Survive

/-!
# Header blocks of a commit as a list of lines
-/

namespace Verif

open Spec Props

/-- Text and shape of the lines of a block. -/
def BlockOk : Block → Prop
  | .line l => LF ∉ l ∧ l ≠ []
  | .sig ls => ∀ l ∈ ls, LF ∉ l ∧ l ≠ sigEnd
  | .merge _ ls msg => (∀ l ∈ ls, LF ∉ l) ∧ ∀ l ∈ msg.getD [], LF ∉ l ∧ l.head? = some SP

theorem sigBody_ok {N : Nat} {b r : Bytes} {ls : List Bytes} (h : SigBody N b ls r) :
    ∀ l ∈ ls, LF ∉ l ∧ l ≠ sigEnd := by
  induction h with
  | stop => simp
  | more b l r r' ls h hne hr ih =>
    intro x hx
    rcases List.mem_cons.1 hx with rfl | hx
    · exact ⟨line_noLF h, hne⟩
    · exact ih x hx

theorem mergeHead_ok {N : Nat} {b r : Bytes} {ls : List Bytes} (h : MergeHead N b ls r) : ∀ l ∈ ls, LF ∉ l := by
  induction h with
  | stop => simp
  | more b l r r' ls h hne hr ih =>
    intro x hx
    rcases List.mem_cons.1 hx with rfl | hx
    · exact line_noLF h
    · exact ih x hx

theorem mergeCut_ok {N : Nat} {b : Bytes} {ls : List Bytes} (h : MergeCut N b ls) : ∀ l ∈ ls, LF ∉ l := by
  induction h with
  | stop => simp
  | more b l r ls h hne hr ih =>
    intro x hx
    rcases List.mem_cons.1 hx with rfl | hx
    · exact line_noLF h
    · exact ih x hx

theorem mergeMsg_ok {N : Nat} {b r : Bytes} {ls : List Bytes} (h : MergeMsg N b ls r) :
    ∀ l ∈ ls, LF ∉ l ∧ l.head? = some SP := by
  induction h with
  | stop => simp
  | more b l r r' ls h hsp hr ih =>
    intro x hx
    rcases List.mem_cons.1 hx with rfl | hx
    · exact ⟨line_noLF h, hsp⟩
    · exact ih x hx

theorem blocks_ok {N : Nat} {b : Bytes} {bs : List Block} {m : Option Bytes} (h : Blocks N b bs m) :
    ∀ B ∈ bs, BlockOk B := by
  induction h with
  | done => simp
  | blank => simp
  | line b l r bs m h hne hm hg hr ih =>
    intro x hx
    rcases List.mem_cons.1 hx with rfl | hx
    · exact ⟨line_noLF h, hne⟩
    · exact ih x hx
  | sig b l r r' ls bs m h hg hl hr ih =>
    intro x hx
    rcases List.mem_cons.1 hx with rfl | hx
    · exact sigBody_ok hl
    · exact ih x hx
  | merge b x r r1 r2 ls msg bs m h hh hl hr ih =>
    intro y hy
    rcases List.mem_cons.1 hy with rfl | hy
    · exact ⟨mergeHead_ok hh, mergeMsg_ok hl⟩
    · exact ih y hy
  | cut b x r ls h hh =>
    intro y hy
    simp only [List.mem_cons, List.not_mem_nil, or_false] at hy
    subst hy
    exact ⟨mergeCut_ok hh, by simp⟩

/-! ## What is left -/

theorem sigBody_shorter {N : Nat} (hN : 2 ≤ N) {b r : Bytes} {ls : List Bytes} (h : SigBody N b ls r) :
    r.length < b.length := by
  induction h with
  | stop b r h => exact line_shorter hN h
  | more b l r r' ls h hne hr ih => exact Nat.lt_trans ih (line_shorter hN h)

theorem mergeHead_shorter {N : Nat} (hN : 2 ≤ N) {b r : Bytes} {ls : List Bytes} (h : MergeHead N b ls r) :
    r.length < b.length := by
  induction h with
  | stop b r h => exact line_shorter hN h
  | more b l r r' ls h hne hr ih => exact Nat.lt_trans ih (line_shorter hN h)

theorem mergeMsg_shorter {N : Nat} (hN : 2 ≤ N) {b r : Bytes} {ls : List Bytes} (h : MergeMsg N b ls r) :
    r.length ≤ b.length := by
  induction h with
  | stop b l r h hne => exact Nat.le_refl _
  | more b l r r' ls h hsp hr ih => exact Nat.le_trans ih (Nat.le_of_lt (line_shorter hN h))

theorem blocks_shorter {N : Nat} (hN : 2 ≤ N) {b : Bytes} {bs : List Block} {m : Option Bytes}
    (h : Blocks N b bs m) : (m.getD []).length ≤ b.length := by
  induction h with
  | done => simp
  | blank b r h => exact Nat.le_of_lt (line_shorter hN h)
  | line b l r bs m h hne hm hg hr ih => exact Nat.le_trans ih (Nat.le_of_lt (line_shorter hN h))
  | sig b l r r' ls bs m h hg hl hr ih =>
    exact Nat.le_trans ih (Nat.le_trans (Nat.le_of_lt (sigBody_shorter hN hl)) (Nat.le_of_lt (line_shorter hN h)))
  | merge b x r r1 r2 ls msg bs m h hh hl hr ih =>
    exact Nat.le_trans ih (Nat.le_trans (mergeMsg_shorter hN hl)
      (Nat.le_trans (Nat.le_of_lt (mergeHead_shorter hN hh)) (Nat.le_of_lt (line_shorter hN h))))
  | cut => simp

/-! ## Blocks of lines -/

/-- The blocks of a list of lines, up to its end. -/
inductive LBlocks : List Bytes → List Block → Prop
  | done : LBlocks [] []
  | line (l : Bytes) (L : List Bytes) (bs : List Block) (hne : l ≠ []) (hm : ¬ b!"mergetag object " <+: l)
      (hg : ¬ b!"gpgsig " <+: l) (h : LBlocks L bs) : LBlocks (l :: L) (.line l :: bs)
  | sig (l : Bytes) (ls L : List Bytes) (bs : List Block) (hg : b!"gpgsig " <+: l) (hne : ∀ x ∈ ls, x ≠ sigEnd)
      (h : LBlocks L bs) : LBlocks (l :: (ls ++ sigEnd :: L)) (.sig ls :: bs)
  | merge (x : Bytes) (ls ms L : List Bytes) (bs : List Block) (hne : ∀ y ∈ ls, y ≠ b!" ")
      (hsp : ∀ y ∈ ms, y.head? = some SP) (hL : ∀ y, L.head? = some y → y.head? ≠ some SP) (h : LBlocks L bs) :
      LBlocks ((b!"mergetag object " ++ x) :: (ls ++ b!" " :: (ms ++ L))) (.merge x ls (some ms) :: bs)
  | cut (x : Bytes) (ls tail : List Bytes) (hne : ∀ y ∈ ls, y ≠ b!" ") :
      LBlocks ((b!"mergetag object " ++ x) :: ls) [.merge x (ls ++ [] :: tail) none]

/-- Lines that fit the buffer. -/
def Fit (N : Nat) (L : List Bytes) : Prop := ∀ l ∈ L, LF ∉ l ∧ l.length < N

theorem fit_cons {N : Nat} {l : Bytes} {L : List Bytes} : Fit N (l :: L) ↔ (LF ∉ l ∧ l.length < N) ∧ Fit N L := by
  simp [Fit]

theorem line_first {N : Nat} (hN : 2 ≤ N) {L : List Bytes} (hL : Fit N L) {msg l r : Bytes}
    (h : Line N (unlines L ++ LF :: msg) l r) :
    (L = [] ∧ l = [] ∧ r = msg) ∨ ∃ x L', L = x :: L' ∧ l = trimCR x ∧ r = unlines L' ++ LF :: msg := by
  cases L with
  | nil =>
    obtain ⟨h1, h2⟩ := line_inv (l := []) hN (by simp) (by simp; omega) h
    exact .inl ⟨rfl, h1, h2⟩
  | cons x L =>
    rw [unlines_cons] at h
    obtain ⟨h1, h2⟩ := line_inv hN (fit_cons.1 hL).1.1 (fit_cons.1 hL).1.2 h
    exact .inr ⟨x, L, rfl, h1, h2⟩

theorem sigBody_lines {N : Nat} (hN : 2 ≤ N) {b r : Bytes} {ls : List Bytes} (h : SigBody N b ls r) :
    ∀ (L : List Bytes) (msg : Bytes), Fit N L → b = unlines L ++ LF :: msg →
      (∃ A x B, L = A ++ x :: B ∧ ls = A.map trimCR ∧ trimCR x = sigEnd ∧ r = unlines B ++ LF :: msg) ∨
        r.length < msg.length := by
  induction h with
  | stop b r h =>
    intro L msg hL hb
    subst hb
    rcases line_first hN hL h with ⟨_, h1, _⟩ | ⟨x, B, rfl, h1, h2⟩
    · exact absurd h1 (by decide)
    · exact .inl ⟨[], x, B, rfl, rfl, h1.symm, h2⟩
  | more b l r r' ls h hne hr ih =>
    intro L msg hL hb
    subst hb
    rcases line_first hN hL h with ⟨_, _, rfl⟩ | ⟨y, B, rfl, h1, h2⟩
    · exact .inr (sigBody_shorter hN hr)
    · rcases ih B msg (fit_cons.1 hL).2 h2 with ⟨A, x, B', rfl, rfl, h4, h5⟩ | h3
      · exact .inl ⟨y :: A, x, B', rfl, by rw [h1]; rfl, h4, h5⟩
      · exact .inr h3

theorem mergeHead_lines {N : Nat} (hN : 2 ≤ N) {b r : Bytes} {ls : List Bytes} (h : MergeHead N b ls r) :
    ∀ (L : List Bytes) (msg : Bytes), Fit N L → b = unlines L ++ LF :: msg →
      (∃ A x B, L = A ++ x :: B ∧ ls = A.map trimCR ∧ trimCR x = b!" " ∧ (∀ y ∈ ls, y ≠ b!" ") ∧
        r = unlines B ++ LF :: msg) ∨ r.length < msg.length := by
  induction h with
  | stop b r h =>
    intro L msg hL hb
    subst hb
    rcases line_first hN hL h with ⟨_, h1, _⟩ | ⟨x, B, rfl, h1, h2⟩
    · exact absurd h1 (by decide)
    · exact .inl ⟨[], x, B, rfl, rfl, h1.symm, by simp, h2⟩
  | more b l r r' ls h hne hr ih =>
    intro L msg hL hb
    subst hb
    rcases line_first hN hL h with ⟨_, _, rfl⟩ | ⟨y, B, rfl, h1, h2⟩
    · exact .inr (mergeHead_shorter hN hr)
    · rcases ih B msg (fit_cons.1 hL).2 h2 with ⟨A, x, B', rfl, rfl, h4, h5, h6⟩ | h3
      · refine .inl ⟨y :: A, x, B', rfl, by rw [h1]; rfl, h4, ?_, h6⟩
        intro z hz
        rcases List.mem_cons.1 hz with rfl | hz
        · exact hne
        · exact h5 z hz
      · exact .inr h3

theorem mergeMsg_lines {N : Nat} (hN : 2 ≤ N) {b r : Bytes} {ls : List Bytes} (h : MergeMsg N b ls r) :
    ∀ (L : List Bytes) (msg : Bytes), Fit N L → b = unlines L ++ LF :: msg →
      ∃ A B, L = A ++ B ∧ ls = A.map trimCR ∧ r = unlines B ++ LF :: msg ∧
        ∀ y, (B.map trimCR).head? = some y → y.head? ≠ some SP := by
  induction h with
  | stop b l r h hne =>
    intro L msg hL hb
    refine ⟨[], L, rfl, rfl, hb, ?_⟩
    subst hb
    intro y hy
    rcases line_first hN hL h with ⟨rfl, h1, _⟩ | ⟨x, B, rfl, h1, h2⟩
    · simp at hy
    · simp only [List.map_cons, List.head?_cons, Option.some.injEq] at hy
      rw [← hy, ← h1]
      exact hne
  | more b l r r' ls h hsp hr ih =>
    intro L msg hL hb
    subst hb
    rcases line_first hN hL h with ⟨_, h1, _⟩ | ⟨y, B, rfl, h1, h2⟩
    · rw [h1] at hsp; simp at hsp
    · obtain ⟨A, B', rfl, rfl, h5, h6⟩ := ih B msg (fit_cons.1 hL).2 h2
      exact ⟨y :: A, B', rfl, by rw [h1]; rfl, h5, h6⟩

theorem mergeCut_lines {N : Nat} (hN : 2 ≤ N) {b : Bytes} {ls : List Bytes} (h : MergeCut N b ls) :
    ∀ (L : List Bytes) (msg : Bytes), Fit N L → b = unlines L ++ LF :: msg →
      ∃ tail, ls = L.map trimCR ++ [] :: tail ∧ ∀ y ∈ L.map trimCR, y ≠ b!" " := by
  induction h with
  | stop =>
    intro L msg hL hb
    exact absurd (congrArg List.length hb) (by simp)
  | more b l r ls h hne hr ih =>
    intro L msg hL hb
    subst hb
    rcases line_first hN hL h with ⟨rfl, rfl, _⟩ | ⟨y, B, rfl, h1, h2⟩
    · exact ⟨ls, rfl, by simp⟩
    · obtain ⟨tail, rfl, h4⟩ := ih B msg (fit_cons.1 hL).2 h2
      refine ⟨tail, by rw [h1]; rfl, ?_⟩
      intro z hz
      rcases List.mem_cons.1 hz with rfl | hz
      · exact h1 ▸ hne
      · exact h4 z hz

/-- If the message is what follows the lines, then the lines are read in blocks. -/
theorem blocks_lines {N : Nat} (hN : 2 ≤ N) {b : Bytes} {bs : List Block} {m : Option Bytes} (h : Blocks N b bs m) :
    ∀ (L : List Bytes) (msg : Bytes), Fit N L → b = unlines L ++ LF :: msg → m.getD [] = msg →
      LBlocks (L.map trimCR) bs := by
  induction h with
  | done =>
    intro L msg hL hb _
    exact absurd (congrArg List.length hb) (by simp)
  | blank b r h =>
    intro L msg hL hb hm
    subst hb
    rcases line_first hN hL h with ⟨rfl, _, _⟩ | ⟨y, B, rfl, h1, h2⟩
    · exact .done
    · simp only [Option.getD_some] at hm
      have := congrArg List.length (h2.symm.trans hm)
      simp at this
      omega
  | line b l r bs m h hne hm hg hr ih =>
    intro L msg hL hb hmsg
    subst hb
    rcases line_first hN hL h with ⟨_, h1, _⟩ | ⟨y, B, rfl, rfl, h2⟩
    · exact absurd h1 hne
    · exact .line _ _ _ hne hm hg (ih B msg (fit_cons.1 hL).2 h2 hmsg)
  | sig b l r r' ls bs m h hg hl hr ih =>
    intro L msg hL hb hmsg
    subst hb
    rcases line_first hN hL h with ⟨_, h1, _⟩ | ⟨y, B, rfl, rfl, h2⟩
    · rw [h1] at hg; exact absurd hg (by decide)
    · rcases sigBody_lines hN hl B msg (fit_cons.1 hL).2 h2 with ⟨A, x, B', rfl, rfl, hx, h5⟩ | h3
      · have hB' : Fit N B' := fun z hz => (fit_cons.1 hL).2 z (by simp [hz])
        simp only [List.map_cons, List.map_append, hx]
        exact .sig _ _ _ _ hg (fun x hx => (sigBody_ok hl x hx).2) (ih B' msg hB' h5 hmsg)
      · have := blocks_shorter hN hr
        rw [hmsg] at this
        omega
  | merge b x r r1 r2 ls ms bs m h hh hl hr ih =>
    intro L msg hL hb hmsg
    subst hb
    rcases line_first hN hL h with ⟨_, h1, _⟩ | ⟨y, B, rfl, h1, h2⟩
    · simp at h1
    · rcases mergeHead_lines hN hh B msg (fit_cons.1 hL).2 h2 with ⟨A, z, B', rfl, rfl, hz, hA, h5⟩ | h3
      · have hB' : Fit N B' := fun z hz => (fit_cons.1 hL).2 z (by simp [hz])
        obtain ⟨A', B'', rfl, rfl, h6, h7⟩ := mergeMsg_lines hN hl B' msg hB' h5
        have hB'' : Fit N B'' := fun z hz => hB' z (by simp [hz])
        simp only [List.map_cons, List.map_append, hz, ← h1]
        exact .merge _ _ _ _ _ hA (fun y hy => (mergeMsg_ok hl y hy).2) h7 (ih B'' msg hB'' h6 hmsg)
      · have h4 := blocks_shorter hN hr
        have h5 := mergeMsg_shorter hN hl
        rw [hmsg] at h4
        omega
  | cut b x r ls h hh =>
    intro L msg hL hb hmsg
    subst hb
    rcases line_first hN hL h with ⟨_, h1, _⟩ | ⟨y, B, rfl, h1, h2⟩
    · simp at h1
    · obtain ⟨tail, rfl, h3⟩ := mergeCut_lines hN hh B msg (fit_cons.1 hL).2 h2
      rw [List.map_cons, ← h1]
      exact .cut _ _ _ h3

/-! ## Reading blocks of known lines -/

theorem lblocks_front {A L : List Bytes} {bs : List Block} (h : LBlocks (A ++ L) bs)
    (hm : ∀ l ∈ A, ¬ b!"mergetag object " <+: l) (hg : ∀ l ∈ A, ¬ b!"gpgsig " <+: l) :
    ∃ bs', bs = A.map .line ++ bs' ∧ LBlocks L bs' := by
  induction A generalizing bs with
  | nil => exact ⟨bs, rfl, h⟩
  | cons a A ih =>
    generalize hX : a :: A ++ L = X at h
    cases h with
    | done => simp at hX
    | line l L' bs' hne h1 h2 h =>
      simp only [List.cons_append, List.cons.injEq] at hX
      obtain ⟨rfl, rfl⟩ := hX
      obtain ⟨bs'', rfl, h'⟩ := ih h (fun l hl => hm l (by simp [hl])) (fun l hl => hg l (by simp [hl]))
      exact ⟨bs'', rfl, h'⟩
    | sig l ls L' bs' h1 =>
      simp only [List.cons_append, List.cons.injEq] at hX
      exact absurd (hX.1 ▸ h1) (hg a (by simp))
    | merge x =>
      simp only [List.cons_append, List.cons.injEq] at hX
      exact absurd (hX.1 ▸ List.prefix_append _ _) (hm a (by simp))
    | cut x =>
      simp only [List.cons_append, List.cons.injEq] at hX
      exact absurd (hX.1 ▸ List.prefix_append _ _) (hm a (by simp))

theorem first_unique {E : Bytes} {A A' T T' : List Bytes} (h1 : ∀ y ∈ A, y ≠ E) (h2 : ∀ y ∈ A', y ≠ E)
    (h : A ++ E :: T = A' ++ E :: T') : A = A' ∧ T = T' := by
  induction A generalizing A' with
  | nil =>
    cases A' with
    | nil => exact ⟨rfl, by simpa using h⟩
    | cons a A' =>
      simp only [List.nil_append, List.cons_append, List.cons.injEq] at h
      exact absurd h.1.symm (h2 a (by simp))
  | cons a A ih =>
    cases A' with
    | nil =>
      simp only [List.nil_append, List.cons_append, List.cons.injEq] at h
      exact absurd h.1 (h1 a (by simp))
    | cons a' A' =>
      simp only [List.cons_append, List.cons.injEq] at h
      obtain ⟨rfl, rfl⟩ := ih (fun y hy => h1 y (by simp [hy])) (fun y hy => h2 y (by simp [hy])) h.2
      exact ⟨by rw [h.1], rfl⟩

theorem lblocks_merge {x : Bytes} {A M : List Bytes} {bs : List Block}
    (h : LBlocks ((b!"mergetag object " ++ x) :: (A ++ b!" " :: M)) bs) (hA : ∀ y ∈ A, y ≠ b!" ") :
    ∃ ms L bs', M = ms ++ L ∧ bs = .merge x A (some ms) :: bs' ∧
      (∀ y, L.head? = some y → y.head? ≠ some SP) ∧ LBlocks L bs' := by
  generalize hX : (b!"mergetag object " ++ x) :: (A ++ b!" " :: M) = X at h
  cases h with
  | done => simp at hX
  | line l L' bs' hne h1 h2 h =>
    rw [List.cons.injEq] at hX
    exact absurd (hX.1 ▸ List.prefix_append _ _) h1
  | sig l ls L' bs' h1 =>
    rw [List.cons.injEq] at hX
    rw [← hX.1] at h1
    simp at h1
  | merge y ls ms L bs' hne hsp hL h =>
    rw [List.cons.injEq] at hX
    obtain rfl := List.append_cancel_left hX.1
    obtain ⟨rfl, rfl⟩ := first_unique hA hne hX.2
    exact ⟨ms, L, bs', rfl, rfl, hL, h⟩
  | cut y ls tail hne =>
    rw [List.cons.injEq] at hX
    exact absurd rfl (hne b!" " (hX.2 ▸ by simp))

/-- The lines of a text. -/
def linesOf : Bytes → List Bytes
  | [] => []
  | b :: r => if b = LF then [] :: linesOf r else
      match linesOf r with
      | [] => [[b]]
      | l :: ls => (b :: l) :: ls

theorem linesOf_cons (l r : Bytes) (h : LF ∉ l) : linesOf (l ++ LF :: r) = l :: linesOf r := by
  induction l with
  | nil => simp [linesOf]
  | cons b l ih =>
    simp only [List.mem_cons, not_or] at h
    rw [List.cons_append, linesOf, if_neg (Ne.symm h.1), ih h.2]

theorem linesOf_unlines (ls : List Bytes) (h : ∀ l ∈ ls, LF ∉ l) : linesOf (unlines ls) = ls := by
  induction ls with
  | nil => rfl
  | cons l ls ih =>
    have := unlines_cons l ls []
    simp only [List.append_nil] at this
    rw [this, linesOf_cons l _ (h l (by simp)), ih (fun x hx => h x (by simp [hx]))]

/-- A text made of lines. -/
def IsLines (g : Bytes) : Prop := ∃ ls, g = unlines ls ∧ ∀ l ∈ ls, LF ∉ l

theorem isLines_iff (g : Bytes) : IsLines g ↔ g = unlines (linesOf g) ∧ ∀ l ∈ linesOf g, LF ∉ l := by
  constructor
  · rintro ⟨ls, rfl, h⟩
    rw [linesOf_unlines ls h]
    exact ⟨rfl, h⟩
  · intro h
    exact ⟨_, h⟩

/-- The lines written for a merge tag. -/
def mergeLines (t : Tag) : List Bytes :=
  [b!"mergetag object " ++ hex (digest t.object), b!" type " ++ t.typ, b!" tag " ++ t.tag,
    b!" tagger " ++ personText t.tagger, b!" "] ++ linesOf t.message

theorem mergeLines_text (t : Tag) (h : IsLines t.message) : mergeTagText t = unlines (mergeLines t) := by
  unfold mergeTagText mergeTagBlock mergeLines
  conv => lhs; rw [((isLines_iff _).1 h).1]
  simp [unlines]

theorem append_same_length {α : Type} {a b c d : List α} (h : a ++ b = c ++ d) (hl : a.length = c.length) :
    a = c ∧ b = d := List.append_inj h hl

theorem trim_map_eq {ls : List Bytes} (h : ls.map trimCR = ls) : ∀ l ∈ ls, trimCR l = l := by
  induction ls with
  | nil => simp
  | cons x ls ih =>
    simp only [List.map_cons, List.cons.injEq] at h
    intro l hl
    rcases List.mem_cons.1 hl with rfl | hl
    · exact h.1
    · exact ih h.2 l hl

theorem lastValue_one {α β : Type} {R : α → β → Prop} {x : α} {d v : β} (h : LastValue R [x] d v) : R x v := by
  obtain ⟨ys, hp, rfl⟩ := h
  match ys, hp with
  | [y], hp => exact hp.1

/-- One merge tag. -/
theorem lblocks_mergetag {t : Tag} {R : List Bytes} {bs : List Block} {x : List Tag}
    (h : LBlocks ((mergeLines t).map trimCR ++ R) bs) (hok : ∀ B ∈ bs, BlockOk B)
    (hm : Pairs MergeMeans (mergeTags bs) (t :: x)) (hobj : IsGitLink t.object) :
    ∃ bs', LBlocks R bs' ∧ (∀ B ∈ bs', BlockOk B) ∧ Pairs MergeMeans (mergeTags bs') x ∧
      plainLines bs = plainLines bs' ∧ signatures bs = signatures bs' ∧
      (∀ l ∈ mergeLines t, trimCR l = l) ∧ PersonOk t.tagger ∧ ∀ y, R.head? = some y → y.head? ≠ some SP := by
  have k1 : trimCR (b!"mergetag object " ++ hex (digest t.object)) = b!"mergetag object " ++ hex (digest t.object) :=
    trimCR_of (hex_line (Nat.le_refl _) _ _ (by decide) (by decide) (by decide) (.inl hobj)).noCR
  have k2 : trimCR (b!" type " ++ t.typ) = b!" type " ++ trimCR t.typ := trimCR_append _ _ (by decide)
  have k3 : trimCR (b!" tag " ++ t.tag) = b!" tag " ++ trimCR t.tag := trimCR_append _ _ (by decide)
  have k4 : trimCR (b!" tagger " ++ personText t.tagger) = b!" tagger " ++ trimCR (personText t.tagger) :=
    trimCR_append _ _ (by decide)
  have k5 : trimCR b!" " = b!" " := by decide
  have e : (mergeLines t).map trimCR ++ R = (b!"mergetag object " ++ hex (digest t.object)) ::
      ([b!" type " ++ trimCR t.typ, b!" tag " ++ trimCR t.tag, b!" tagger " ++ trimCR (personText t.tagger)] ++
        b!" " :: ((linesOf t.message).map trimCR ++ R)) := by
    simp only [mergeLines, List.map_append, List.map_cons, List.map_nil, k1, k2, k3, k4, k5]
    rfl
  rw [e] at h
  obtain ⟨ms, L, bs', hM, rfl, hL, h'⟩ := lblocks_merge h (by
    intro y hy
    simp only [List.mem_cons, List.not_mem_nil, or_false] at hy
    rcases hy with rfl | rfl | rfl <;> simp)
  obtain ⟨hmm, hrest⟩ : MergeMeans (hex (digest t.object),
      [b!" type " ++ trimCR t.typ, b!" tag " ++ trimCR t.tag, b!" tagger " ++ trimCR (personText t.tagger)], some ms) t ∧
      Pairs MergeMeans (mergeTags bs') x := hm
  obtain ⟨_, m2, m3, m4, m5⟩ := hmm
  simp only [Option.getD_some] at m2 m3 m4 m5
  have hms := (hok _ (List.mem_cons_self ..)).2
  simp only [Option.getD_some] at hms
  have hms2 : linesOf t.message = ms := by rw [m5, linesOf_unlines ms (fun l hl => (hms l hl).1)]
  rw [hms2] at hM
  obtain ⟨hM1, rfl⟩ := append_same_length hM (by simp)
  have m2 : t.typ = trimCR t.typ := by simpa [behind, linesWith] using m2
  have m3 : t.tag = trimCR t.tag := by simpa [behind, linesWith] using m3
  have m4 : PersonRead (b!"tagger " ++ trimCR (personText t.tagger)) t.tagger := by
    have : (linesWith b!" tagger " [b!" type " ++ trimCR t.typ, b!" tag " ++ trimCR t.tag,
        b!" tagger " ++ trimCR (personText t.tagger)]).map (·.drop 1) =
        [b!"tagger " ++ trimCR (personText t.tagger)] := by simp [linesWith]
    rw [this] at m4
    exact lastValue_one m4
  have k6 : trimCR (b!"tagger " ++ personText t.tagger) = b!"tagger " ++ trimCR (personText t.tagger) :=
    trimCR_append _ _ (by decide)
  rw [← k6] at m4
  obtain ⟨hcr, hpok⟩ := person_exact (w := b!"tagger") (p := t.tagger) (by decide) (by decide) m4
  have k7 : trimCR (personText t.tagger) = personText t.tagger := by
    have := trimCR_of hcr
    exact List.append_cancel_left ((trimCR_append b!"tagger " _ (by decide)).symm.trans this)
  refine ⟨bs', h', fun B hB => hok B (by simp [hB]), hrest, rfl, rfl, ?_, hpok, hL⟩
  intro l hl
  rcases List.mem_append.1 hl with hl | hl
  · simp only [List.mem_cons, List.not_mem_nil, or_false] at hl
    rcases hl with rfl | rfl | rfl | rfl | rfl
    · exact k1
    · rw [k2, ← m2]
    · rw [k3, ← m3]
    · rw [k4, k7]
    · exact k5
  · rw [hms2] at hl
    exact trim_map_eq hM1 l hl

/-- All merge tags. -/
theorem lblocks_mergetags {ts : List Tag} {R : List Bytes} {bs : List Block}
    (h : LBlocks ((ts.flatMap mergeLines).map trimCR ++ R) bs) (hok : ∀ B ∈ bs, BlockOk B)
    (hm : Pairs MergeMeans (mergeTags bs) ts)
    (hobj : ∀ t ∈ ts, IsGitLink t.object) :
    ∃ bs', LBlocks R bs' ∧ (∀ B ∈ bs', BlockOk B) ∧ mergeTags bs' = [] ∧
      plainLines bs = plainLines bs' ∧ signatures bs = signatures bs' ∧
      (∀ t ∈ ts, (∀ l ∈ mergeLines t, trimCR l = l) ∧ PersonOk t.tagger) ∧
      (ts ≠ [] → ∀ y, R.head? = some y → y.head? ≠ some SP) := by
  induction ts generalizing bs with
  | nil =>
    refine ⟨bs, h, hok, ?_, rfl, rfl, by simp, by simp⟩
    have := pairs_length hm
    exact List.eq_nil_of_length_eq_zero this
  | cons t ts ih =>
    rw [List.flatMap_cons, List.map_append, List.append_assoc] at h
    obtain ⟨bs1, h1, hok1, hm1, hp1, hs1, hc1, hper, hh1⟩ :=
      lblocks_mergetag h hok hm (hobj t (by simp))
    obtain ⟨bs2, h2, hok2, hm2, hp2, hs2, hc2, hh2⟩ := ih h1 hok1 hm1
      (fun t ht' => hobj t (by simp [ht']))
    refine ⟨bs2, h2, hok2, hm2, hp1.trans hp2, hs1.trans hs2, ?_, ?_⟩
    · intro t' ht'
      rcases List.mem_cons.1 ht' with rfl | ht'
      · exact ⟨hc1, hper⟩
      · exact hc2 t' ht'
    · intro _
      cases ts with
      | nil => exact hh1
      | cons t' ts => exact hh2 (by simp)

/-- Without signatures and merge tags there are only lines. -/
theorem lblocks_plain {R : List Bytes} {bs : List Block} (h : LBlocks R bs) (hm : mergeTags bs = [])
    (hs : signatures bs = []) : plainLines bs = R := by
  induction h with
  | done => rfl
  | line l L bs hne h1 h2 h ih =>
    have e1 : mergeTags (.line l :: bs) = mergeTags bs := rfl
    have e2 : signatures (.line l :: bs) = signatures bs := rfl
    have e3 : plainLines (.line l :: bs) = l :: plainLines bs := rfl
    rw [e3, ih (e1 ▸ hm) (e2 ▸ hs)]
  | sig => simp [signatures] at hs
  | merge => simp [mergeTags] at hm
  | cut => simp [mergeTags] at hm

/-- Lines taken by signatures, with begin and end. -/
def sigWeight (ss : List (List Bytes)) : Nat := (ss.map fun ls => 2 + ls.length).sum

/-- Every line belongs to a signature or is plain. -/
theorem lblocks_weight {R : List Bytes} {bs : List Block} (h : LBlocks R bs) (hm : mergeTags bs = []) :
    R.length = (plainLines bs).length + sigWeight (signatures bs) := by
  induction h with
  | done => rfl
  | line l L bs hne h1 h2 h ih =>
    have e1 : mergeTags (.line l :: bs) = mergeTags bs := rfl
    have e2 : signatures (.line l :: bs) = signatures bs := rfl
    have e3 : plainLines (.line l :: bs) = l :: plainLines bs := rfl
    have := ih (e1 ▸ hm)
    rw [e2, e3]
    simp only [List.length_cons]
    omega
  | sig l ls L bs hg hne h ih =>
    have e1 : mergeTags (.sig ls :: bs) = mergeTags bs := rfl
    have e2 : signatures (.sig ls :: bs) = ls :: signatures bs := rfl
    have e3 : plainLines (.sig ls :: bs) = plainLines bs := rfl
    have := ih (e1 ▸ hm)
    rw [e2, e3]
    simp only [sigWeight, List.map_cons, List.sum_cons, List.length_cons, List.length_append] at *
    omega
  | merge => simp [mergeTags] at hm
  | cut => simp [mergeTags] at hm

theorem lblocks_sig {l : Bytes} {L : List Bytes} {bs : List Block} (h : LBlocks (l :: L) bs)
    (hl : b!"gpgsig " <+: l) :
    ∃ ls L' bs', L = ls ++ sigEnd :: L' ∧ bs = .sig ls :: bs' ∧ LBlocks L' bs' := by
  generalize hX : l :: L = X at h
  cases h with
  | done => simp at hX
  | line l' L' bs' hne h1 h2 h =>
    rw [List.cons.injEq] at hX
    exact absurd (hX.1 ▸ hl) h2
  | sig l' ls L' bs' h1 hne h =>
    rw [List.cons.injEq] at hX
    exact ⟨ls, L', bs', hX.2, rfl, h⟩
  | merge x =>
    rw [List.cons.injEq] at hX
    rw [hX.1] at hl
    simp at hl
  | cut x =>
    rw [List.cons.injEq] at hX
    rw [hX.1] at hl
    simp at hl

/-- The last signature is the only one if the rest is as long as it must be. -/
theorem lblocks_signed {R : List Bytes} {bs : List Block} {gl others : List Bytes}
    (h : LBlocks (sigBegin :: (gl.map trimCR ++ sigEnd :: R)) bs) (hm : mergeTags bs = [])
    (hg : (signatures bs).getLast? = some gl) (ho : others.length = R.length)
    (hp : others.length ≤ (plainLines bs).length) :
    gl.map trimCR = gl ∧ signatures bs = [gl] ∧ plainLines bs = R := by
  have hw := lblocks_weight h hm
  obtain ⟨init, hi⟩ := List.getLast?_eq_some_iff.1 hg
  have hw2 : sigWeight (signatures bs) = sigWeight init + (2 + gl.length) := by
    rw [hi]; simp [sigWeight]
  simp only [List.length_cons, List.length_append, List.length_map] at hw
  have hi0 : init = [] := by
    cases init with
    | nil => rfl
    | cons x xs =>
      exfalso
      have : 2 ≤ sigWeight (x :: xs) := by simp [sigWeight]; omega
      omega
  subst hi0
  obtain ⟨ls, L', bs', hL, rfl, h'⟩ := lblocks_sig h (by decide)
  have e2 : signatures (.sig ls :: bs') = ls :: signatures bs' := rfl
  rw [e2] at hi
  simp only [List.nil_append, List.cons.injEq] at hi
  obtain ⟨rfl, hi⟩ := hi
  obtain ⟨hL1, hL2⟩ := append_same_length hL (by simp)
  simp only [List.cons.injEq, true_and] at hL2
  subst hL2
  exact ⟨hL1, by rw [e2, hi], (show plainLines bs' = _ from lblocks_plain h' hm hi)⟩

theorem plainLines_front (A : List Bytes) (bs : List Block) :
    plainLines (A.map .line ++ bs) = A ++ plainLines bs := by
  induction A with
  | nil => rfl
  | cons a A ih =>
    have e : plainLines (.line a :: (A.map .line ++ bs)) = a :: plainLines (A.map .line ++ bs) := rfl
    simp only [List.map_cons, List.cons_append]
    rw [e, ih]

theorem signatures_front (A : List Bytes) (bs : List Block) :
    signatures (A.map .line ++ bs) = signatures bs := by
  induction A with
  | nil => rfl
  | cons a A ih => exact ih

theorem mergeTags_front (A : List Bytes) (bs : List Block) :
    mergeTags (A.map .line ++ bs) = mergeTags bs := by
  induction A with
  | nil => rfl
  | cons a A ih => exact ih

end Verif
