import Verif.Props.Order
import Verif.Props.Accept
import Verif.Props.Person

/-!
# Reading back what the encoders write
-/

namespace Verif

open Spec Props

/-! ## Lines -/

/-- Without a CR at the end. -/
def trimCR (l : Bytes) : Bytes := if l.getLast? = some CR then l.dropLast else l

theorem trimCR_of {l : Bytes} (h : l.getLast? ≠ some CR) : trimCR l = l := if_neg h

theorem trimCR_eq_iff (l : Bytes) : trimCR l = l ↔ l.getLast? ≠ some CR := by
  constructor
  · intro h hc
    unfold trimCR at h
    rw [if_pos hc] at h
    have := congrArg List.length h
    cases l with
    | nil => simp at hc
    | cons b l => simp at this
  · exact trimCR_of

theorem concat_of_last {l : Bytes} {b : UInt8} (h : l.getLast? = some b) : l = l.dropLast ++ [b] := by
  obtain ⟨l', rfl⟩ := List.getLast?_eq_some_iff.1 h
  simp

/-- A line that fits the buffer is read without its CR. -/
theorem line_trim {N : Nat} (l T : Bytes) (hl : LF ∉ l) (hs : l.length < N) : Line N (l ++ LF :: T) (trimCR l) T := by
  by_cases h : l.getLast? = some CR
  · have e := concat_of_last h
    unfold trimCR
    rw [if_pos h]
    generalize l.dropLast = x at e
    subst e
    have := Line.crlf (N := N) x T (by simp at hl; exact hl.1) (by simpa using hs)
    simpa using this
  · rw [trimCR_of h]
    exact Line.lf l T hl h hs

theorem line_inv {N : Nat} (hN : 2 ≤ N) {l T l' r : Bytes} (hl : LF ∉ l) (hs : l.length < N)
    (h : Line N (l ++ LF :: T) l' r) : l' = trimCR l ∧ r = T := Line_unique hN h (line_trim l T hl hs)

theorem trimCR_prefix (l : Bytes) : trimCR l <+: l := by
  unfold trimCR
  split
  · exact List.dropLast_prefix l
  · exact List.prefix_rfl

theorem trimCR_append (w x : Bytes) (hw : w.getLast? ≠ some CR) : trimCR (w ++ x) = w ++ trimCR x := by
  cases x with
  | nil => rw [List.append_nil, trimCR_of hw]; simp [trimCR]
  | cons b x =>
    have e : (w ++ b :: x).getLast? = (b :: x).getLast? := by
      rw [List.getLast?_append]
      cases h : (b :: x).getLast? with
      | none => simp at h
      | some v => rfl
    unfold trimCR
    rw [e, List.dropLast_append_of_ne_nil (by simp)]
    split <;> rfl

theorem line_noLF {N : Nat} {b l r : Bytes} (h : Line N b l r) : LF ∉ l := by
  cases h <;> assumption

/-- Every line takes something from the input. -/
theorem line_shorter {N : Nat} (hN : 2 ≤ N) {b l r : Bytes} (h : Line N b l r) : r.length < b.length := by
  cases h with
  | lf _ _ _ _ _ => simp; omega
  | crlf _ _ _ _ => simp; omega
  | last _ hne _ _ => exact List.length_pos_iff.2 hne
  | full _ _ _ _ hs => simp; omega
  | fullCR _ _ _ hs => simp; omega

/-! ## Persons -/

theorem spaces_count (b : UInt8) (hb : b ≠ SP) (ws : List Bytes) :
    (spaces ws).count b = (ws.map (·.count b)).sum := by
  induction ws with
  | nil => rfl
  | cons w ws ih =>
    cases ws with
    | nil => simp [spaces]
    | cons x r =>
      have hsp : (SP == b) = false := by simpa using Ne.symm hb
      rw [spaces, List.count_append, List.count_cons, ih]
      simp [hsp]

theorem unopen_count (b : UInt8) (w : Bytes) : (unopen w).count b ≤ w.count b := by
  unfold unopen
  split
  · exact (List.tail_sublist w).count_le b
  · exact Nat.le_refl _

theorem unopen_sum (b : UInt8) (ws : List Bytes) :
    ((ws.map unopen).map (·.count b)).sum ≤ (ws.map (·.count b)).sum := by
  induction ws with
  | nil => simp
  | cons w ws ih =>
    have := unopen_count b w
    simp only [List.map_cons, List.sum_cons]
    omega

theorem dropWhile_sum (b : UInt8) (ws : List Bytes) :
    ((ws.dropWhile (· = [])).map (·.count b)).sum ≤ (ws.map (·.count b)).sum := by
  induction ws with
  | nil => simp
  | cons w ws ih =>
    rw [List.dropWhile_cons]
    split
    · simp only [List.map_cons, List.sum_cons]
      omega
    · exact Nat.le_refl _

/-- How often a byte occurs in a person. -/
def personCount (b : UInt8) (p : PersonInfo) : Nat :=
  p.name.count b + p.email.count b + p.date.count b + p.timezone.count b

theorem personRead_count {line : Bytes} {p : PersonInfo} (h : PersonRead line p) (b : UInt8) (hb : b ≠ SP) :
    personCount b p ≤ line.count b := by
  obtain ⟨w, name, email, end_, e, after, rfl, _, _, _, _, _, he, h1, h2, h3, h4⟩ := h
  unfold personCount
  rw [h1, h2, h3, h4, spaces_count b hb, spaces_count b hb, spaces_count b hb]
  have k1 := dropWhile_sum b name
  have k2 := unopen_sum b email
  have k3 : e.count b ≤ end_.count b := by
    have := unopen_count b end_
    rw [he, List.count_append] at this
    omega
  rw [List.map_map] at k2
  simp only [List.map_cons, List.map_append, List.map_map, List.sum_cons, List.sum_append, List.map_nil,
    List.sum_nil]
  have k1' : (List.map (fun x => List.count b x) (List.dropWhile (fun x => decide (x = [])) name)).sum ≤
      (List.map (fun x => List.count b x) name).sum := k1
  generalize (List.map (fun x => List.count b x) (List.dropWhile (fun x => decide (x = [])) name)).sum = z1 at *
  generalize (List.map (fun x => List.count b x) name).sum = z2 at *
  generalize (List.map ((fun x => List.count b x) ∘ unopen) email).sum = z3 at *
  cases after with
  | nil => simp; omega
  | cons d after =>
    cases after with
    | nil => simp; omega
    | cons z after => simp; omega

theorem personText_count (p : PersonInfo) (b : UInt8) (h1 : b ≠ SP) (h2 : b ≠ LT) (h3 : b ≠ GT) :
    (personText p).count b = personCount b p := by
  have e1 : (SP == b) = false := by simpa using Ne.symm h1
  have e2 : (LT == b) = false := by simpa using Ne.symm h2
  have e3 : (GT == b) = false := by simpa using Ne.symm h3
  have f1 : (b!" <").count b = 0 := by
    show [SP, LT].count b = 0
    simp [List.count_cons, e1, e2]
  have f2 : (b!">").count b = 0 := by
    show [GT].count b = 0
    simp [List.count_cons, e3]
  unfold personText personCount
  rw [List.count_append, List.count_append, List.count_append, List.count_append, List.count_append, f1, f2]
  have g : ∀ x : Bytes, (if x = [] then [] else SP :: x).count b = x.count b := by
    intro x
    split
    · rename_i h; rw [h]
    · rw [List.count_cons, e1]; simp
  rw [g, g]
  omega

theorem personRead_noLF {line : Bytes} {p : PersonInfo} (h : PersonRead line p) (hl : LF ∉ line) :
    LF ∉ personText p := by
  have h1 := personRead_count h LF (by decide)
  rw [List.count_eq_zero.2 hl] at h1
  rw [← List.count_eq_zero, personText_count p LF (by decide) (by decide) (by decide)]
  omega

/-- A person line that is read back as the person has no CR at its end. -/
theorem person_trim {w : Bytes} {p : PersonInfo} (hw : CR ∉ w)
    (h : PersonRead (trimCR (w ++ SP :: personText p)) p) :
    (w ++ SP :: personText p).getLast? ≠ some CR := by
  intro hc
  have h1 := personRead_count h CR (by decide)
  rw [← personText_count p CR (by decide) (by decide) (by decide)] at h1
  unfold trimCR at h1
  rw [if_pos hc] at h1
  have e := congrArg (List.count CR) (concat_of_last hc)
  have e1 : (w ++ SP :: personText p).count CR = (personText p).count CR := by
    rw [List.count_append, List.count_cons, List.count_eq_zero.2 hw]
    simp
    decide
  rw [e1, List.count_append] at e
  have e2 : [CR].count CR = 1 := by decide
  omega

theorem person_exact {w : Bytes} {p : PersonInfo} (hw : CR ∉ w) (hsp : SP ∉ w)
    (h : PersonRead (trimCR (w ++ SP :: personText p)) p) :
    (w ++ SP :: personText p).getLast? ≠ some CR ∧ PersonOk p := by
  have h1 := person_trim hw h
  rw [trimCR_of h1] at h
  have h2 := person_roundtrip w p hsp
  rw [h2.1] at h2
  exact ⟨h1, h2.2.1 ((person_accepts _ _).2 h)⟩

/-! ## Values of header lines -/

theorem lastValue_cases {α β : Type} {R : α → β → Prop} {xs : List α} {d v : β} (h : LastValue R xs d v) :
    v = d ∨ ∃ x ∈ xs, R x v := by
  obtain ⟨ys, hp, rfl⟩ := h
  have : ∀ (xs : List α) (ys : List β), Pairs R xs ys → ys.getLast?.getD d = d ∨ ∃ x ∈ xs, R x (ys.getLast?.getD d) := by
    intro xs
    induction xs with
    | nil =>
      intro ys hp
      cases ys with
      | nil => exact .inl rfl
      | cons y ys => exact hp.elim
    | cons x xs ih =>
      intro ys hp
      cases ys with
      | nil => exact hp.elim
      | cons y ys =>
        cases ys with
        | nil => exact .inr ⟨x, by simp, by simpa using hp.1⟩
        | cons z ys =>
          rcases ih _ hp.2 with h | ⟨x', hx', h⟩
          · exact .inl (by simpa using h)
          · exact .inr ⟨x', by simp [hx'], by simpa using h⟩
  exact this xs ys hp

theorem pairs_mem {α β : Type} {R : α → β → Prop} {xs : List α} {ys : List β} (h : Pairs R xs ys) :
    ∀ y ∈ ys, ∃ x ∈ xs, R x y := by
  induction xs generalizing ys with
  | nil =>
    cases ys with
    | nil => simp
    | cons y ys => exact h.elim
  | cons x xs ih =>
    cases ys with
    | nil => simp
    | cons y ys =>
      intro z hz
      rcases List.mem_cons.1 hz with rfl | hz
      · exact ⟨x, by simp, h.1⟩
      · obtain ⟨x', hx', h'⟩ := ih h.2 z hz
        exact ⟨x', by simp [hx'], h'⟩

theorem pairs_length {α β : Type} {R : α → β → Prop} {xs : List α} {ys : List β} (h : Pairs R xs ys) :
    xs.length = ys.length := by
  induction xs generalizing ys with
  | nil =>
    cases ys with
    | nil => rfl
    | cons y ys => exact h.elim
  | cons x xs ih =>
    cases ys with
    | nil => exact h.elim
    | cons y ys => simp [ih h.2]

theorem behind_mem {w x : Bytes} {ls : List Bytes} (h : x ∈ behind w ls) : w ++ x ∈ ls := by
  obtain ⟨l, hl, rfl⟩ := List.mem_map.1 h
  obtain ⟨hl, hp⟩ := List.mem_filter.1 hl
  obtain ⟨y, rfl⟩ := List.isPrefixOf_iff_prefix.1 hp
  simpa using hl

theorem linesWith_mem {w l : Bytes} {ls : List Bytes} (h : l ∈ linesWith w ls) : l ∈ ls :=
  (List.mem_filter.1 h).1

theorem getLast?_getD_mem {α : Type} (xs : List α) (d : α) : xs.getLast?.getD d = d ∨ xs.getLast?.getD d ∈ xs := by
  cases h : xs.getLast? with
  | none => exact .inl rfl
  | some v => exact .inr (List.mem_of_getLast? h)

theorem head_lines {N : Nat} {b : Bytes} {ls : List Bytes} {m : Option Bytes} (h : Head N b ls m) :
    ∀ l ∈ ls, LF ∉ l ∧ l ≠ [] := by
  induction h with
  | done => simp
  | blank => simp
  | line b l r ls m h hne hr ih =>
    intro x hx
    rcases List.mem_cons.1 hx with rfl | hx
    · exact ⟨line_noLF h, hne⟩
    · exact ih x hx

theorem refLink_git {h : Bytes} {l : Link} (hr : RefLink h l) : IsGitLink l := by
  obtain ⟨sha, hr, rfl⟩ := hr
  exact ⟨sha, hr.2, rfl⟩

theorem hex_line {N : Nat} (hN : 4096 ≤ N) (w : Bytes) (l : Link) (hw : w.length ≤ 20) (hLF : LF ∉ w)
    (hCR : w.getLast? ≠ some CR) (h : GitOrNil l) : HeaderLine N (w ++ hex (digest l)) := by
  rcases h with h | rfl
  · exact headerLine_ref N _ _ _ hLF (ref_hex _ (digest_length h)) (by omega)
  · have : hex (digest .nil) = [] := by decide
    rw [this, List.append_nil]
    exact ⟨hLF, hCR, by omega⟩

end Verif
