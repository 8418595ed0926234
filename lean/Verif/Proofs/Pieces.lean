import Verif.Proofs.SurviveCommit

/-!
# Lines as long as the buffer

What a line of any length is cut into, and how long a person is that is read
from a line.
-/

namespace Verif.Props

open Verif Spec

/-! ## Persons -/

/-- The bytes of words with one byte more for each. -/
def wordsSize (ws : List Bytes) : Nat := (ws.map fun x => x.length + 1).sum

theorem wordsSize_append (a b : List Bytes) : wordsSize (a ++ b) = wordsSize a + wordsSize b := by
  simp [wordsSize]

theorem wordsSize_cons (a : Bytes) (b : List Bytes) : wordsSize (a :: b) = a.length + 1 + wordsSize b := by
  simp [wordsSize]

theorem spaces_length (w : Bytes) (ws : List Bytes) : (spaces (w :: ws)).length + 1 = wordsSize (w :: ws) := by
  induction ws generalizing w with
  | nil => simp [spaces, wordsSize]
  | cons x ws ih =>
    have := ih x
    rw [wordsSize_cons w, ← this]
    simp [spaces]
    omega

theorem spaces_dropped (ws : List Bytes) (h : ws ≠ []) : (spaces (ws.dropWhile (· = []))).length + 1 ≤ wordsSize ws := by
  induction ws with
  | nil => exact absurd rfl h
  | cons w ws ih =>
    rw [List.dropWhile_cons]
    split
    · cases ws with
      | nil => simp [spaces, wordsSize]
      | cons x ws =>
        have := ih (by simp)
        rw [wordsSize_cons]
        omega
    · exact Nat.le_of_eq (spaces_length w ws)

theorem unopen_length (w : Bytes) : (unopen w).length ≤ w.length := by
  unfold unopen
  split <;> simp

theorem unopen_size (ws : List Bytes) : wordsSize (ws.map unopen) ≤ wordsSize ws := by
  induction ws with
  | nil => simp
  | cons w ws ih =>
    have := unopen_length w
    rw [List.map_cons, wordsSize_cons, wordsSize_cons]
    omega

theorem unopen_lt {w : Bytes} (h : w.head? = some LT) : (unopen w).length + 1 = w.length := by
  unfold unopen
  rw [if_pos h]
  cases w with
  | nil => simp at h
  | cons b w => simp

/-- What is written for a person is not longer than what it was read from, but for the
space behind an empty name. -/
theorem personRead_length {w y : Bytes} {p : PersonInfo} (hw : SP ∉ w) (h : PersonRead (w ++ SP :: y) p) :
    (personText p).length ≤ y.length + 1 ∧
    ((p.name ≠ [] ∨ y.head? = some SP) → (personText p).length ≤ y.length) := by
  obtain ⟨w', name, email, end_, e, after, hl, hsp, _, _, hopen, _, he, h1, h2, h3, h4⟩ := h
  -- the first word
  obtain ⟨x, xs, hx⟩ : ∃ x xs, name ++ (email ++ end_ :: after) = x :: xs := by
    cases name with
    | nil =>
      cases email with
      | nil => exact ⟨_, _, rfl⟩
      | cons a b => exact ⟨_, _, rfl⟩
    | cons a b => exact ⟨_, _, rfl⟩
  have hy : y = spaces (name ++ (email ++ end_ :: after)) := by
    rw [hx] at hl ⊢
    simp only [spaces] at hl
    have k1 := splitAt_notin SP w y hw
    rw [hl, splitAt_notin SP w' _ (hsp w' (by simp))] at k1
    simp only [Option.some.injEq, Prod.mk.injEq] at k1
    exact k1.2.symm
  have hylen : y.length + 1 = wordsSize name + (wordsSize email + (end_.length + 1 + wordsSize after)) := by
    rw [hy, hx, spaces_length, ← hx, wordsSize_append, wordsSize_append, wordsSize_cons]
  have hem : p.email.length + 2 ≤ wordsSize email + end_.length := by
    have k : p.email.length + 1 = wordsSize (email.map unopen) + (e.length + 1) := by
      rw [h2]
      cases email with
      | nil => simp [spaces, wordsSize]
      | cons a b =>
        rw [List.map_cons, List.cons_append, spaces_length, ← List.cons_append, wordsSize_append]
        simp [wordsSize]
    have k2 : (unopen end_).length = e.length + 1 := by rw [he]; simp
    cases email with
    | nil =>
      have := unopen_lt (w := end_) (by simpa using hopen)
      simp only [List.map_nil] at k
      omega
    | cons a b =>
      have k3 := unopen_lt (w := a) (by simpa using hopen)
      have k4 := unopen_size b
      have k5 := unopen_length end_
      rw [List.map_cons, wordsSize_cons] at k
      rw [wordsSize_cons]
      omega
  have haf : (if p.date = [] then ([] : Bytes) else SP :: p.date).length +
      (if p.timezone = [] then ([] : Bytes) else SP :: p.timezone).length ≤ wordsSize after := by
    rw [h3, h4]
    cases after with
    | nil => simp
    | cons a b =>
      cases b with
      | nil =>
        simp only [List.head?_cons, Option.getD_some, wordsSize_cons, List.tail_cons, List.head?_nil,
          Option.getD_none, if_pos, List.length_nil]
        by_cases ha : a = [] <;> simp [ha]
      | cons b c =>
        simp only [List.head?_cons, Option.getD_some, wordsSize_cons, List.tail_cons]
        by_cases ha : a = [] <;> by_cases hb : b = [] <;> simp [ha, hb] <;> omega
  have hlen : (personText p).length = p.name.length + 3 + p.email.length +
      ((if p.date = [] then ([] : Bytes) else SP :: p.date).length +
      (if p.timezone = [] then ([] : Bytes) else SP :: p.timezone).length) := by
    unfold personText
    simp only [List.length_append]
    have e1 : (b!" <").length = 2 := by decide
    have e2 : (b!">").length = 1 := by decide
    rw [e1, e2]
    omega
  have hname : name ≠ [] → p.name.length + 1 ≤ wordsSize name := fun h => by rw [h1]; exact spaces_dropped name h
  constructor
  · by_cases hn : name = []
    · have : p.name = [] := by rw [h1, hn]; rfl
      rw [this] at hlen
      simp only [List.length_nil] at hlen
      omega
    · have := hname hn
      omega
  · intro hc
    have hn : name ≠ [] := by
      rintro rfl
      rcases hc with hc | hc
      · exact hc (by rw [h1]; rfl)
      · rw [hy] at hc
        cases email with
        | nil =>
          simp only [List.nil_append, List.head?_cons, Option.bind_some] at hopen hc
          cases after with
          | nil => simp only [spaces] at hc; rw [hc] at hopen; exact absurd hopen (by decide)
          | cons b c =>
            cases end_ with
            | nil => simp at hopen
            | cons d end_ =>
              simp only [spaces, List.cons_append, List.head?_cons] at hc hopen
              rw [hc] at hopen
              exact absurd hopen (by decide)
        | cons a b =>
          simp only [List.cons_append, List.head?_cons, Option.bind_some, List.nil_append] at hopen hc
          cases a with
          | nil => simp at hopen
          | cons d a =>
            have : ∃ z, spaces ((d :: a) :: (b ++ end_ :: after)) = d :: z := by
              cases h : b ++ end_ :: after with
              | nil => exact ⟨a, rfl⟩
              | cons q r => exact ⟨_, rfl⟩
            obtain ⟨z, hz⟩ := this
            rw [hz] at hc
            simp only [List.head?_cons] at hc hopen
            rw [hc] at hopen
            exact absurd hopen (by decide)
    have := hname hn
    omega

/-- A person is not read back from less than all of the line that is written for it. -/
theorem personRead_whole {w f : Bytes} {p : PersonInfo} (hw : SP ∉ w) (hf : f <+: w ++ SP :: personText p)
    (hlen : w.length + 2 ≤ f.length) (h : PersonRead f p) : f = w ++ SP :: personText p := by
  obtain ⟨y, rfl⟩ : ∃ y, f = w ++ SP :: y := by
    have h1 : w ++ [SP] <+: w ++ SP :: personText p := ⟨personText p, by simp⟩
    obtain ⟨y, hy⟩ := List.prefix_of_prefix_length_le h1 hf (by simp; omega)
    exact ⟨y, by rw [← hy]; simp⟩
  have hy : y <+: personText p := by
    have := (List.prefix_append_right_inj w).1 hf
    exact (List.cons_prefix_cons.1 this).2
  have := (personRead_length hw h).2 (by
    by_cases hn : p.name = []
    · right
      have : personText p = SP :: (LT :: (p.email ++ b!">" ++ (if p.date = [] then [] else SP :: p.date)
          ++ (if p.timezone = [] then [] else SP :: p.timezone))) := by
        unfold personText
        rw [hn]
        rfl
      rw [this] at hy
      cases y with
      | nil => simp at hlen
      | cons b y => rw [(List.cons_prefix_cons.1 hy).1]; rfl
    · exact .inl hn)
  rw [List.IsPrefix.eq_of_length_le hy this]

theorem personText_last {p : PersonInfo} (h1 : SP ∉ p.date) (h2 : SP ∉ p.timezone) :
    (personText p).getLast? ≠ some SP := by
  have key : ∀ (a x : Bytes), a.getLast? ≠ some SP → SP ∉ x →
      (a ++ (if x = [] then [] else SP :: x)).getLast? ≠ some SP := by
    intro a x ha hx
    by_cases h : x = []
    · simpa [h] using ha
    · rw [if_neg h, List.getLast?_append, List.getLast?_cons]
      cases hl : x.getLast? with
      | none => exact absurd (List.getLast?_eq_none_iff.1 hl) h
      | some b =>
        simp only [Option.getD_some, Option.some_or, ne_eq, Option.some.injEq]
        rintro rfl
        exact hx (List.mem_of_getLast? hl)
  unfold personText
  exact key _ _ (key _ _ (by rw [List.getLast?_append]; simp; decide) h1) h2

theorem personRead_words {line : Bytes} {p : PersonInfo} (h : PersonRead line p) :
    SP ∉ p.date ∧ SP ∉ p.timezone := by
  obtain ⟨w', name, email, end_, e, after, hl, hsp, _, _, hopen, _, he, h1, h2, h3, h4⟩ := h
  rw [h3, h4]
  match after, hsp with
  | [], _ => simp
  | [a], hsp => exact ⟨hsp a (by simp), by simp⟩
  | a :: b :: c, hsp => exact ⟨hsp a (by simp), hsp b (by simp)⟩

/-! ## Cutting a line -/

/-- What a line, however long, is read as. -/
def cuts (N : Nat) (l : Bytes) : List Bytes :=
  if h : N < 2 ∨ l.length < N then [trimCR l]
  else if (l.take N).getLast? = some CR then l.take (N - 1) :: cuts N (l.drop (N - 1))
  else l.take N :: cuts N (l.drop N)
termination_by l.length
decreasing_by all_goals simp only [List.length_drop]; omega

theorem cuts_short {N : Nat} {l : Bytes} (h : l.length < N) : cuts N l = [trimCR l] := by
  rw [cuts]; simp [h]

/-- The first piece of a long line. -/
theorem cuts_long {N : Nat} (hN : 2 ≤ N) {l : Bytes} (h : N ≤ l.length) :
    ∃ f r, l = f ++ r ∧ cuts N l = f :: cuts N r ∧
      ((f.length = N ∧ f.getLast? ≠ some CR) ∨ (f.length + 1 = N ∧ ∃ r', r = CR :: r')) := by
  rw [cuts, dif_neg (by omega)]
  split
  · rename_i hc
    refine ⟨l.take (N - 1), l.drop (N - 1), by simp, rfl, .inr ⟨by simp; omega, ?_⟩⟩
    have e : l.take N = l.take (N - 1) ++ (l.drop (N - 1)).take 1 := by
      rw [← List.take_add]; congr 1; omega
    rw [e] at hc
    cases hd : l.drop (N - 1) with
    | nil =>
      have := congrArg List.length hd
      simp only [List.length_drop, List.length_nil] at this
      omega
    | cons b r' =>
      rw [hd] at hc
      simp at hc
      exact ⟨r', by rw [hc]⟩
  · rename_i hc
    exact ⟨l.take N, l.drop N, by simp, rfl, .inl ⟨by simp; omega, hc⟩⟩

theorem trimCR_length (l : Bytes) : (trimCR l).length ≤ l.length := (trimCR_prefix l).length_le

theorem trimCR_nil : trimCR [] = [] := by decide

/-- The pieces of a line that is at most one byte longer than the buffer. -/
theorem cuts_shape {N : Nat} (hN : 3 ≤ N) {l : Bytes} (h : l.length ≤ N + 1) :
    ∃ f gs, cuts N l = f :: gs ∧ f <+: l ∧ f.length ≤ N ∧ (f = l → l.getLast? ≠ some CR) ∧
      l.length ≤ f.length + 2 ∧
      (l.length < N → f = trimCR l ∧ gs = []) ∧ (l.length = N → gs = [[]]) ∧ (l.length = N + 1 → ∃ g, gs = [g]) ∧
      (∀ g ∈ gs, g.length ≤ 2 ∧ (l.getLast? ≠ some SP → g ≠ b!" ")) ∧
      (∀ w, w <+: l → w.getLast? ≠ some CR → w.length + 1 ≤ N → w <+: f) := by
  by_cases hs : l.length < N
  · refine ⟨trimCR l, [], cuts_short hs, trimCR_prefix l, ?_, fun h => (trimCR_eq_iff l).1 h, ?_, fun _ => ⟨rfl, rfl⟩,
      fun h => by omega, fun h => by omega, by simp, ?_⟩
    · have := trimCR_length l
      omega
    · unfold trimCR
      split
      · simp; omega
      · omega
    · rintro w ⟨x, rfl⟩ hw _
      rw [trimCR_append w x hw]
      exact List.prefix_append _ _
  · obtain ⟨f, r, rfl, hc, hf⟩ := cuts_long (by omega) (Nat.le_of_not_lt hs)
    simp only [List.length_append] at h hs
    have hr : r.length < N := by omega
    rw [cuts_short hr] at hc
    refine ⟨f, [trimCR r], hc, List.prefix_append _ _, by omega, ?_, ?_, ?_, ?_, fun _ => ⟨_, rfl⟩, ?_, ?_⟩
    · intro he
      have : r = [] := by simpa using he
      subst this
      rw [List.append_nil]
      rcases hf with hf | ⟨_, r', hr'⟩
      · exact hf.2
      · simp at hr'
    · simp only [List.length_append]; omega
    · simp only [List.length_append]; omega
    · simp only [List.length_append]
      intro hl
      rcases hf with hf | ⟨hf, r', rfl⟩
      · have : r = [] := List.eq_nil_of_length_eq_zero (by omega)
        rw [this, trimCR_nil]
      · have : r' = [] := List.eq_nil_of_length_eq_zero (by simp at hl; omega)
        rw [this]
        rfl
    · intro g hg
      simp only [List.mem_cons, List.not_mem_nil, or_false] at hg
      subst hg
      refine ⟨?_, ?_⟩
      · have := trimCR_length r
        omega
      · intro hl he
        rcases hf with hf | ⟨hf, r', rfl⟩
        · have h1 : r.length ≤ 1 := by omega
          match r, h1 with
          | [], _ => exact absurd he (by decide)
          | [b], _ =>
            by_cases hb : b = CR
            · subst hb; exact absurd he (by decide)
            · have : trimCR [b] = [b] := trimCR_of (by simpa using hb)
              rw [this] at he
              have : b = SP := by simpa using he
              subst this
              exact hl (by simp)
        · have h1 : r'.length ≤ 1 := by simp at h; omega
          match r', h1 with
          | [], _ => exact absurd he (by decide)
          | [b], _ =>
            by_cases hb : b = CR
            · subst hb; exact absurd he (by decide)
            · have : trimCR [CR, b] = [CR, b] := trimCR_of (by simpa using hb)
              rw [this] at he
              exact absurd (congrArg List.length he) (by simp)
    · intro w hw _ hlen
      exact List.prefix_of_prefix_length_le hw (List.prefix_append _ _) (by omega)

theorem cuts_ne (N : Nat) (l : Bytes) : cuts N l ≠ [] := by
  rw [cuts]
  split
  · simp
  · split <;> simp

theorem cuts_two {N : Nat} (hN : 2 ≤ N) {l : Bytes} (h : N ≤ l.length) : 2 ≤ (cuts N l).length := by
  obtain ⟨f, r, _, hc, _⟩ := cuts_long hN h
  rw [hc]
  have := List.length_pos_iff.2 (cuts_ne N r)
  simp only [List.length_cons]
  omega

/-- The bytes of some lines. -/
def linesTotal (ls : List Bytes) : Nat := (ls.map List.length).sum

theorem cuts_total {N : Nat} (hN : 2 ≤ N) (l : Bytes) : linesTotal (cuts N l) ≤ l.length := by
  have main : ∀ n, ∀ l : Bytes, l.length < n → linesTotal (cuts N l) ≤ l.length := by
    intro n
    induction n with
    | zero => intro l h; omega
    | succ n ih =>
      intro l hl
      by_cases hs : l.length < N
      · rw [cuts_short hs]
        simpa [linesTotal] using trimCR_length l
      · obtain ⟨f, r, rfl, hc, hf⟩ := cuts_long hN (Nat.le_of_not_lt hs)
        rw [hc]
        simp only [List.length_append] at hl ⊢
        have := ih r (by omega)
        simp only [linesTotal, List.map_cons, List.sum_cons] at this ⊢
        omega
  exact main _ l (Nat.lt_succ_self _)

theorem cutAll_total {N : Nat} (hN : 2 ≤ N) (ls : List Bytes) : linesTotal (ls.flatMap (cuts N)) ≤ linesTotal ls := by
  induction ls with
  | nil => simp [linesTotal]
  | cons l ls ih =>
    have := cuts_total hN l
    simp only [linesTotal, List.flatMap_cons, List.map_append, List.sum_append, List.map_cons, List.sum_cons] at *
    omega

theorem cutAll_length (N : Nat) (ls : List Bytes) : ls.length ≤ (ls.flatMap (cuts N)).length := by
  induction ls with
  | nil => simp
  | cons l ls ih =>
    have := List.length_pos_iff.2 (cuts_ne N l)
    simp only [List.flatMap_cons, List.length_append, List.length_cons]
    omega

/-- Lines that are read as they are. -/
theorem cutAll_same {N : Nat} (hN : 2 ≤ N) {ls : List Bytes} (h : ls.flatMap (cuts N) = ls) :
    ∀ l ∈ ls, l.length < N ∧ trimCR l = l := by
  induction ls with
  | nil => simp
  | cons l ls ih =>
    by_cases hs : l.length < N
    · rw [List.flatMap_cons, cuts_short hs] at h
      simp only [List.cons_append, List.nil_append, List.cons.injEq] at h
      intro x hx
      rcases List.mem_cons.1 hx with rfl | hx
      · exact ⟨hs, h.1⟩
      · exact ih h.2 x hx
    · exfalso
      have h1 := cuts_two hN (Nat.le_of_not_lt hs)
      have h2 := cutAll_length N ls
      have h3 := congrArg List.length h
      simp only [List.flatMap_cons, List.length_append, List.length_cons] at h3
      omega

theorem cutAll_short {N : Nat} {ls : List Bytes} (h : ∀ l ∈ ls, l.length < N) : ls.flatMap (cuts N) = ls.map trimCR := by
  induction ls with
  | nil => rfl
  | cons l ls ih =>
    rw [List.flatMap_cons, cuts_short (h l (by simp)), ih fun l hl => h l (by simp [hl])]
    rfl

/-! ## Reading lines of any length -/

/-- The lines that are read up to the blank line before the message. -/
inductive Pieces (N : Nat) : Bytes → List Bytes → Bytes → Prop
  | stop (msg : Bytes) : Pieces N (LF :: msg) [] msg
  | cons (b l r : Bytes) (ls : List Bytes) (msg : Bytes) (h : Line N b l r) (hr : Pieces N r ls msg) :
      Pieces N b (l :: ls) msg

theorem pieces_cuts {N : Nat} (hN : 2 ≤ N) {T msg : Bytes} {L : List Bytes} (h : Pieces N T L msg) :
    ∀ l : Bytes, LF ∉ l → Pieces N (l ++ LF :: T) (cuts N l ++ L) msg := by
  have main : ∀ n, ∀ l : Bytes, l.length < n → LF ∉ l → Pieces N (l ++ LF :: T) (cuts N l ++ L) msg := by
    intro n
    induction n with
    | zero => intro l h; omega
    | succ n ih =>
      intro l hl hLF
      by_cases hs : l.length < N
      · rw [cuts_short hs]
        exact .cons _ _ _ _ _ (line_trim l T hLF hs) h
      · obtain ⟨f, r, rfl, hc, hf⟩ := cuts_long hN (Nat.le_of_not_lt hs)
        rw [hc, List.append_assoc]
        simp only [List.length_append] at hl
        simp only [List.mem_append, not_or] at hLF
        have h1 := ih r (by omega) hLF.2
        rcases hf with ⟨hf, hcr⟩ | ⟨hf, r', rfl⟩
        · exact .cons _ _ _ _ _ (.full f _ hLF.1 hcr hf) h1
        · exact .cons _ _ _ _ _ (.fullCR f _ hLF.1 hf) h1
  exact fun l => main _ l (Nat.lt_succ_self _)

theorem pieces_all {N : Nat} (hN : 2 ≤ N) (msg : Bytes) (H : List Bytes) (h : ∀ l ∈ H, LF ∉ l) :
    Pieces N (unlines H ++ LF :: msg) (H.flatMap (cuts N)) msg := by
  induction H with
  | nil => exact .stop msg
  | cons l H ih =>
    rw [unlines_cons]
    exact pieces_cuts hN (ih fun l hl => h l (by simp [hl])) l (h l (by simp))

theorem line_blank {N : Nat} (hN : 2 ≤ N) (msg : Bytes) : Line N (LF :: msg) [] msg :=
  .lf [] msg (by simp) (by simp) (by simp; omega)

theorem pieces_line {N : Nat} (hN : 2 ≤ N) {b msg l r : Bytes} {L : List Bytes} (h : Pieces N b L msg)
    (hl : Line N b l r) : (L = [] ∧ l = [] ∧ r = msg) ∨ ∃ L', L = l :: L' ∧ Pieces N r L' msg := by
  cases h with
  | stop =>
    obtain ⟨h1, h2⟩ := Line_unique hN hl (line_blank hN msg)
    exact .inl ⟨rfl, h1, h2⟩
  | cons _ l' r' ls _ h hr =>
    obtain ⟨rfl, rfl⟩ := Line_unique hN hl h
    exact .inr ⟨ls, rfl, hr⟩

theorem sigBody_pieces {N : Nat} (hN : 2 ≤ N) {b r : Bytes} {ls : List Bytes} (h : SigBody N b ls r) :
    ∀ (L : List Bytes) (msg : Bytes), Pieces N b L msg →
      (∃ B, L = ls ++ sigEnd :: B ∧ Pieces N r B msg) ∨ r.length < msg.length := by
  induction h with
  | stop b r h =>
    intro L msg hL
    rcases pieces_line hN hL h with ⟨_, h1, _⟩ | ⟨B, rfl, h2⟩
    · exact absurd h1 (by decide)
    · exact .inl ⟨B, rfl, h2⟩
  | more b l r r' ls h hne hr ih =>
    intro L msg hL
    rcases pieces_line hN hL h with ⟨_, _, rfl⟩ | ⟨B, rfl, h2⟩
    · exact .inr (sigBody_shorter hN hr)
    · rcases ih B msg h2 with ⟨B', rfl, h3⟩ | h3
      · exact .inl ⟨B', rfl, h3⟩
      · exact .inr h3

theorem mergeHead_pieces {N : Nat} (hN : 2 ≤ N) {b r : Bytes} {ls : List Bytes} (h : MergeHead N b ls r) :
    ∀ (L : List Bytes) (msg : Bytes), Pieces N b L msg →
      (∃ B, L = ls ++ b!" " :: B ∧ (∀ y ∈ ls, y ≠ b!" ") ∧ Pieces N r B msg) ∨ r.length < msg.length := by
  induction h with
  | stop b r h =>
    intro L msg hL
    rcases pieces_line hN hL h with ⟨_, h1, _⟩ | ⟨B, rfl, h2⟩
    · exact absurd h1 (by decide)
    · exact .inl ⟨B, rfl, by simp, h2⟩
  | more b l r r' ls h hne hr ih =>
    intro L msg hL
    rcases pieces_line hN hL h with ⟨_, _, rfl⟩ | ⟨B, rfl, h2⟩
    · exact .inr (mergeHead_shorter hN hr)
    · rcases ih B msg h2 with ⟨B', rfl, h4, h3⟩ | h3
      · refine .inl ⟨B', rfl, ?_, h3⟩
        intro y hy
        rcases List.mem_cons.1 hy with rfl | hy
        · exact hne
        · exact h4 y hy
      · exact .inr h3

theorem mergeMsg_pieces {N : Nat} (hN : 2 ≤ N) {b r : Bytes} {ls : List Bytes} (h : MergeMsg N b ls r) :
    ∀ (L : List Bytes) (msg : Bytes), Pieces N b L msg →
      ∃ B, L = ls ++ B ∧ Pieces N r B msg ∧ ∀ y, B.head? = some y → y.head? ≠ some SP := by
  induction h with
  | stop b l r h hne =>
    intro L msg hL
    refine ⟨L, rfl, hL, ?_⟩
    rcases pieces_line hN hL h with ⟨rfl, _, _⟩ | ⟨B, rfl, h2⟩
    · simp
    · intro y hy
      simp only [List.head?_cons, Option.some.injEq] at hy
      exact hy ▸ hne
  | more b l r r' ls h hsp hr ih =>
    intro L msg hL
    rcases pieces_line hN hL h with ⟨_, rfl, _⟩ | ⟨B, rfl, h2⟩
    · simp at hsp
    · obtain ⟨B', rfl, h3⟩ := ih B msg h2
      exact ⟨B', rfl, h3⟩

theorem mergeCut_pieces {N : Nat} (hN : 2 ≤ N) {b : Bytes} {ls : List Bytes} (h : MergeCut N b ls) :
    ∀ (L : List Bytes) (msg : Bytes), Pieces N b L msg →
      ∃ tail, ls = L ++ [] :: tail ∧ ∀ y ∈ L, y ≠ b!" " := by
  induction h with
  | stop =>
    intro L msg hL
    cases hL with
    | cons _ _ _ _ _ h => exact (Line_nil hN h).elim
  | more b l r ls h hne hr ih =>
    intro L msg hL
    rcases pieces_line hN hL h with ⟨rfl, rfl, _⟩ | ⟨B, rfl, h2⟩
    · exact ⟨ls, rfl, by simp⟩
    · obtain ⟨tail, rfl, h3⟩ := ih B msg h2
      refine ⟨tail, rfl, ?_⟩
      intro y hy
      rcases List.mem_cons.1 hy with rfl | hy
      · exact hne
      · exact h3 y hy

theorem pieces_shorter {N : Nat} (hN : 2 ≤ N) {b msg : Bytes} {L : List Bytes} (h : Pieces N b L msg) :
    msg.length < b.length := by
  induction h with
  | stop => simp
  | cons b l r ls msg h hr ih => exact Nat.lt_trans ih (line_shorter hN h)

/-- If the message is what follows the lines, then the pieces are read in blocks. -/
theorem blocks_pieces {N : Nat} (hN : 2 ≤ N) {b : Bytes} {bs : List Block} {m : Option Bytes} (h : Blocks N b bs m) :
    ∀ (L : List Bytes) (msg : Bytes), Pieces N b L msg → m.getD [] = msg → LBlocks L bs := by
  induction h with
  | done =>
    intro L msg hL _
    cases hL with
    | cons _ _ _ _ _ h => exact (Line_nil hN h).elim
  | blank b r h =>
    intro L msg hL hm
    rcases pieces_line hN hL h with ⟨rfl, _, _⟩ | ⟨B, rfl, h2⟩
    · exact .done
    · simp only [Option.getD_some] at hm
      have := pieces_shorter hN h2
      rw [hm] at this
      omega
  | line b l r bs m h hne hm hg hr ih =>
    intro L msg hL hmsg
    rcases pieces_line hN hL h with ⟨_, h1, _⟩ | ⟨B, rfl, h2⟩
    · exact absurd h1 hne
    · exact .line _ _ _ hne hm hg (ih B msg h2 hmsg)
  | sig b l r r' ls bs m h hg hl hr ih =>
    intro L msg hL hmsg
    rcases pieces_line hN hL h with ⟨_, h1, _⟩ | ⟨B, rfl, h2⟩
    · rw [h1] at hg; exact absurd hg (by decide)
    · rcases sigBody_pieces hN hl B msg h2 with ⟨B', rfl, h5⟩ | h3
      · exact .sig _ _ _ _ hg (fun x hx => (sigBody_ok hl x hx).2) (ih B' msg h5 hmsg)
      · have := blocks_shorter hN hr
        rw [hmsg] at this
        omega
  | merge b x r r1 r2 ls ms bs m h hh hl hr ih =>
    intro L msg hL hmsg
    rcases pieces_line hN hL h with ⟨_, h1, _⟩ | ⟨B, rfl, h2⟩
    · simp at h1
    · rcases mergeHead_pieces hN hh B msg h2 with ⟨B', rfl, hA, h5⟩ | h3
      · obtain ⟨B'', rfl, h6, h7⟩ := mergeMsg_pieces hN hl B' msg h5
        exact .merge _ _ _ _ _ hA (fun y hy => (mergeMsg_ok hl y hy).2) h7 (ih B'' msg h6 hmsg)
      · have h4 := blocks_shorter hN hr
        have h5 := mergeMsg_shorter hN hl
        rw [hmsg] at h4
        omega
  | cut b x r ls h hh =>
    intro L msg hL hmsg
    rcases pieces_line hN hL h with ⟨_, h1, _⟩ | ⟨B, rfl, h2⟩
    · simp at h1
    · obtain ⟨tail, rfl, h3⟩ := mergeCut_pieces hN hh B msg h2
      exact .cut _ _ _ h3

theorem pieces_cons_inv {N : Nat} {b msg l : Bytes} {L : List Bytes} (h : Pieces N b (l :: L) msg) :
    ∃ r, Line N b l r ∧ Pieces N r L msg := by
  cases h with
  | cons _ _ r _ _ h hr => exact ⟨r, h, hr⟩

theorem pieces_sigBody {N : Nat} {ls : List Bytes} : ∀ {b msg : Bytes} {L : List Bytes},
    (∀ x ∈ ls, x ≠ sigEnd) → Pieces N b (ls ++ sigEnd :: L) msg → ∃ r, SigBody N b ls r ∧ Pieces N r L msg := by
  induction ls with
  | nil =>
    intro b msg L _ h
    obtain ⟨r, h1, h2⟩ := pieces_cons_inv h
    exact ⟨r, .stop _ _ h1, h2⟩
  | cons l ls ih =>
    intro b msg L hne h
    obtain ⟨r, h1, h2⟩ := pieces_cons_inv h
    obtain ⟨r', h3, h4⟩ := ih (fun x hx => hne x (by simp [hx])) h2
    exact ⟨r', .more _ _ _ _ _ h1 (hne l (by simp)) h3, h4⟩

theorem pieces_mergeHead {N : Nat} {ls : List Bytes} : ∀ {b msg : Bytes} {L : List Bytes},
    (∀ x ∈ ls, x ≠ b!" ") → Pieces N b (ls ++ b!" " :: L) msg → ∃ r, MergeHead N b ls r ∧ Pieces N r L msg := by
  induction ls with
  | nil =>
    intro b msg L _ h
    obtain ⟨r, h1, h2⟩ := pieces_cons_inv h
    exact ⟨r, .stop _ _ h1, h2⟩
  | cons l ls ih =>
    intro b msg L hne h
    obtain ⟨r, h1, h2⟩ := pieces_cons_inv h
    obtain ⟨r', h3, h4⟩ := ih (fun x hx => hne x (by simp [hx])) h2
    exact ⟨r', .more _ _ _ _ _ h1 (hne l (by simp)) h3, h4⟩

theorem pieces_mergeMsg {N : Nat} (hN : 2 ≤ N) {ls : List Bytes} : ∀ {b msg : Bytes} {L : List Bytes},
    (∀ x ∈ ls, x.head? = some SP) → (∀ y, L.head? = some y → y.head? ≠ some SP) → Pieces N b (ls ++ L) msg →
      ∃ r, MergeMsg N b ls r ∧ Pieces N r L msg := by
  induction ls with
  | nil =>
    intro b msg L _ hL h
    refine ⟨b, ?_, h⟩
    cases h with
    | stop => exact .stop _ _ _ (line_blank hN msg) (by simp)
    | cons _ l r _ _ h hr => exact .stop _ _ _ h (hL l rfl)
  | cons l ls ih =>
    intro b msg L hsp hL h
    obtain ⟨r, h1, h2⟩ := pieces_cons_inv h
    obtain ⟨r', h3, h4⟩ := ih (fun x hx => hsp x (by simp [hx])) hL h2
    exact ⟨r', .more _ _ _ _ _ h1 (hsp l (by simp)) h3, h4⟩

/-- The other way: blocks of pieces are read. -/
theorem pieces_blocks {N : Nat} (hN : 2 ≤ N) {L : List Bytes} {bs : List Block} (h : LBlocks L bs) :
    ∀ (b msg : Bytes), (∀ x ls, Block.merge x ls none ∉ bs) → Pieces N b L msg → Blocks N b bs (some msg) := by
  induction h with
  | done =>
    intro b msg _ h
    cases h with
    | stop => exact .blank _ _ (line_blank hN msg)
  | line l L bs hne hm hg h ih =>
    intro b msg hc hp
    obtain ⟨r, h1, h2⟩ := pieces_cons_inv hp
    exact .line _ _ _ _ _ h1 hne hm hg (ih r msg (fun x ls hx => hc x ls (by simp [hx])) h2)
  | sig l ls L bs hg hne h ih =>
    intro b msg hc hp
    obtain ⟨r, h1, h2⟩ := pieces_cons_inv hp
    obtain ⟨r', h3, h4⟩ := pieces_sigBody hne h2
    exact .sig _ _ _ _ _ _ _ h1 hg h3 (ih r' msg (fun x ls hx => hc x ls (by simp [hx])) h4)
  | merge x ls ms L bs hne hsp hL h ih =>
    intro b msg hc hp
    obtain ⟨r, h1, h2⟩ := pieces_cons_inv hp
    obtain ⟨r1, h3, h4⟩ := pieces_mergeHead hne h2
    obtain ⟨r2, h5, h6⟩ := pieces_mergeMsg hN hsp hL h4
    exact .merge _ _ _ _ _ _ _ _ _ h1 h3 h5 (ih r2 msg (fun x ls hx => hc x ls (by simp [hx])) h6)
  | cut x ls tail =>
    intro b msg hc
    exact absurd (List.mem_singleton.2 rfl) (hc _ _)

/-! ## Bounds -/

theorem line_len_le {N : Nat} {b l r : Bytes} (h : Line N b l r) : l.length ≤ N := by
  cases h <;> omega

/-- No line of the block is longer than the buffer. -/
def BlockLe (N : Nat) : Block → Prop
  | .line l => l.length ≤ N
  | .sig ls => ∀ l ∈ ls, l.length ≤ N
  | .merge _ ls msg => (∀ l ∈ ls, l.length ≤ N) ∧ ∀ l ∈ msg.getD [], l.length ≤ N

theorem sigBody_le {N : Nat} {b r : Bytes} {ls : List Bytes} (h : SigBody N b ls r) : ∀ l ∈ ls, l.length ≤ N := by
  induction h with
  | stop => simp
  | more b l r r' ls h hne hr ih =>
    intro x hx
    rcases List.mem_cons.1 hx with rfl | hx
    · exact line_len_le h
    · exact ih x hx

theorem mergeHead_le {N : Nat} {b r : Bytes} {ls : List Bytes} (h : MergeHead N b ls r) : ∀ l ∈ ls, l.length ≤ N := by
  induction h with
  | stop => simp
  | more b l r r' ls h hne hr ih =>
    intro x hx
    rcases List.mem_cons.1 hx with rfl | hx
    · exact line_len_le h
    · exact ih x hx

theorem mergeCut_le {N : Nat} {b : Bytes} {ls : List Bytes} (h : MergeCut N b ls) : ∀ l ∈ ls, l.length ≤ N := by
  induction h with
  | stop => simp
  | more b l r ls h hne hr ih =>
    intro x hx
    rcases List.mem_cons.1 hx with rfl | hx
    · exact line_len_le h
    · exact ih x hx

theorem mergeMsg_lines_le {N : Nat} {b r : Bytes} {ls : List Bytes} (h : MergeMsg N b ls r) : ∀ l ∈ ls, l.length ≤ N := by
  induction h with
  | stop => simp
  | more b l r r' ls h hsp hr ih =>
    intro x hx
    rcases List.mem_cons.1 hx with rfl | hx
    · exact line_len_le h
    · exact ih x hx

theorem blocks_le {N : Nat} {b : Bytes} {bs : List Block} {m : Option Bytes} (h : Blocks N b bs m) :
    ∀ B ∈ bs, BlockLe N B := by
  induction h with
  | done => simp
  | blank => simp
  | line b l r bs m h hne hm hg hr ih =>
    intro x hx
    rcases List.mem_cons.1 hx with rfl | hx
    · exact line_len_le h
    · exact ih x hx
  | sig b l r r' ls bs m h hg hl hr ih =>
    intro x hx
    rcases List.mem_cons.1 hx with rfl | hx
    · exact sigBody_le hl
    · exact ih x hx
  | merge b x r r1 r2 ls ms bs m h hh hl hr ih =>
    intro x hx
    rcases List.mem_cons.1 hx with rfl | hx
    · exact ⟨mergeHead_le hh, mergeMsg_lines_le hl⟩
    · exact ih x hx
  | cut b x r ls h hh =>
    intro x hx
    rw [List.mem_singleton.1 hx]
    exact ⟨mergeCut_le hh, by simp⟩

end Verif.Props
