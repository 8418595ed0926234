import Verif.Spec.TagSign
import Verif.Props.Tag
import Verif.Props.GitWrite
import Verif.Spec.Verify
import Verif.Props.Fsck

/-!
# C114 How a client signs a tag
-/

namespace Verif.Props

open Verif Spec

/-- A tag is taken apart in one way. -/
theorem tagSigned_unique {body p s p' s' : Bytes} (h : GitTagSigned body p s) (h' : GitTagSigned body p' s') : p = p' ∧ s = s' := by
  obtain ⟨h1, h2, h3, h4⟩ := h
  obtain ⟨h1', h2', h3', h4'⟩ := h'
  have key : ∀ {p s p' s' : Bytes}, p ++ s = p' ++ s' → p.length ≤ p'.length → (p' = [] ∨ p'.getLast? = some LF) →
      (∀ a b, s = a ++ LF :: b → ¬ Marked b) → Marked s' → p = p' ∧ s = s' := by
    intro p s p' s' he hl hp hn hm
    obtain ⟨x, rfl⟩ : ∃ x, p' = p ++ x := by
      obtain ⟨x, hx⟩ := List.prefix_of_prefix_length_le (List.prefix_append p s) (he ▸ List.prefix_append p' s') hl
      exact ⟨x, hx.symm⟩
    rw [List.append_assoc] at he
    have he := List.append_cancel_left he
    cases x with
    | nil => exact ⟨by simp, by simpa using he⟩
    | cons c x =>
      exfalso
      rcases hp with hp | hp
      · simp at hp
      · rw [List.getLast?_append, List.getLast?_cons] at hp
        have hx : (c :: x).getLast? = some LF := by
          rw [List.getLast?_cons]
          simpa using hp
        obtain ⟨y, hy⟩ := List.getLast?_eq_some_iff.1 hx
        rw [hy] at he
        exact hn y s' (by simpa using he) hm
  rcases Nat.le_total p.length p'.length with hl | hl
  · exact key (h1.symm.trans h1') hl h2' h4 h3'
  · obtain ⟨e1, e2⟩ := key (h1'.symm.trans h1) hl h2 h4' h3
    exact ⟨e1.symm, e2.symm⟩

theorem lines_after {ls : List Bytes} (hl : ∀ l ∈ ls, LF ∉ l) {a b : Bytes} (h : unlines ls = a ++ LF :: b) :
    ∃ xs ys, ls = xs ++ ys ∧ xs ≠ [] ∧ b = unlines ys := by
  induction ls generalizing a with
  | nil => simp [unlines] at h
  | cons l ls ih =>
    have h' : l ++ LF :: unlines ls = a ++ LF :: b := by simpa [unlines] using h
    by_cases ha : LF ∈ a
    · obtain ⟨x, y, rfl, hx⟩ := List.eq_append_cons_of_mem ha
      rw [List.append_assoc, List.cons_append] at h'
      obtain ⟨_, h2⟩ := split_first h' (hl l (by simp)) hx
      obtain ⟨xs, ys, rfl, _, hb⟩ := ih (fun l h => hl l (by simp [h])) h2
      exact ⟨l :: xs, ys, rfl, by simp, hb⟩
    · obtain ⟨rfl, h2⟩ := split_first h' (hl l (by simp)) ha
      exact ⟨[l], ls, rfl, by simp, h2.symm⟩

/-- No line of the armour after the first begins like a signature. -/
theorem armour_tagSig {f : SigFormat} {ls : List Bytes} (h : Armour f ls) (hl : ∀ l ∈ ls, LF ∉ l) : TagSig (armourText f ls) := by
  have hd : ∀ m ∈ sigMarks, b!"-----B" <+: m := by decide
  have hfl : LF ∉ f.first ∧ LF ∉ f.last := by cases f <;> decide
  refine ⟨⟨f.first, by cases f <;> decide, ?_⟩, ?_⟩
  · exact ⟨LF :: unlines (ls ++ [f.last]), by simp [armourText, unlines]⟩
  · rintro a b hab ⟨m, hm, hp⟩
    have hpre : b!"-----B" <+: b := (hd m hm).trans hp
    obtain ⟨xs, ys, he, hx, rfl⟩ := lines_after (ls := f.first :: ls ++ [f.last]) (by
      intro l h'
      simp only [List.cons_append, List.mem_cons, List.mem_append, List.not_mem_nil, or_false] at h'
      rcases h' with rfl | h' | rfl
      · exact hfl.1
      · exact hl l h'
      · exact hfl.2) hab
    cases xs with
    | nil => exact hx rfl
    | cons x xs =>
      simp only [List.cons_append, List.cons.injEq] at he
      cases ys with
      | nil => simp [unlines] at hpre
      | cons y ys =>
        have hy : y ∈ ls ++ [f.last] := by rw [he.2]; simp
        have hu : unlines (y :: ys) = y ++ LF :: unlines ys := by simp [unlines]
        rw [hu] at hpre
        have hno : ∀ c r, c ≠ 0x2d → ¬ b!"-----B" <+: c :: r := by
          rintro c r hc ⟨t, ht⟩
          simp only [List.cons_append, List.cons.injEq] at ht
          exact hc ht.1.symm
        have hb64 : ∀ l, Base64Line l → ∃ c r, l = c :: r ∧ c ≠ 0x2d := by
          rintro l ⟨h1, h2⟩
          cases l with
          | nil => exact absurd rfl h1
          | cons c r =>
            refine ⟨c, r, rfl, ?_⟩
            rintro rfl
            exact absurd (h2 _ (List.mem_cons_self ..)) (by decide)
        have hhd : ∀ l, ArmourHeader l → ∃ c r, l = c :: r ∧ c ≠ 0x2d := by
          rintro l ⟨k, v, rfl, h1, h2⟩
          cases k with
          | nil => exact absurd rfl h1
          | cons c k =>
            refine ⟨c, _, rfl, ?_⟩
            rintro rfl
            exact absurd (h2 _ (List.mem_cons_self ..)) (by decide)
        have hline : ∀ l ∈ ls, l = [] ∨ ∃ c r, l = c :: r ∧ c ≠ 0x2d := by
          intro l hl'
          cases h with
          | pgp hs bs hh hb =>
            rcases List.mem_append.1 hl' with h' | h'
            · exact .inr (hhd l (hh l h'))
            · rcases List.mem_cons.1 h' with h' | h'
              · exact .inl h'
              · exact .inr (hb64 l (hb l h'))
          | x509 b bs hb => exact .inr (hb64 l (hb l hl'))
          | ssh b bs hb => exact .inr (hb64 l (hb l hl'))
        rcases List.mem_append.1 hy with hy | hy
        · rcases hline y hy with rfl | ⟨c, r, rfl, hc⟩
          · exact hno _ _ (by decide) hpre
          · exact hno _ _ hc hpre
        · rw [List.mem_singleton.1 hy] at hpre
          obtain ⟨t, ht⟩ := hpre
          revert ht
          cases f <;> simp [SigFormat.last, SigFormat.label]

/-- A tag with a message is written. The client hands the body to the signing program and
puts the signature behind the message. Then git finds this signature of this body exactly
if the message ends with its line. Without a message what has to be signed is the body and
an empty line. -/
theorem sign_tag {t : Tag} {enc body : Bytes} (e : encTag t = .ok enc) (hb : Framed b!"tag" body enc) {s : Bytes} (hs : TagSig s) :
    ∃ enc' body', encTag { t with message := t.message ++ s } = .ok enc' ∧ Framed b!"tag" body' enc' ∧
      (t.message ≠ [] → (GitTagSigned body' body s ↔ t.message.getLast? = some LF)) ∧
      (t.message = [] → GitTagSigned body' (body ++ [LF]) s) := by
  obtain ⟨h, h1, _⟩ := Res.bind_eq_ok.1 e
  have hs0 : s ≠ [] := by
    rintro rfl
    obtain ⟨⟨m, hm, hp⟩, _⟩ := hs
    simp only [List.prefix_nil] at hp
    subst hp
    exact absurd hm (by decide)
  have hw : ∀ m, encTag { t with message := m } = .ok (withHeader b!"tag"
      (b!"object " ++ hexEncode h ++ [LF] ++ b!"type " ++ t.typ ++ [LF] ++ b!"tag " ++ t.tag ++ [LF]
        ++ b!"tagger " ++ gitString t.tagger ++ [LF] ++ (if m ≠ [] then LF :: m else []))) := by
    intro m
    unfold encTag
    simp only [h1, Res.bind_ok]
  generalize hpre : b!"object " ++ hexEncode h ++ [LF] ++ b!"type " ++ t.typ ++ [LF] ++ b!"tag " ++ t.tag ++ [LF]
        ++ b!"tagger " ++ gitString t.tagger ++ [LF] = pre at hw
  have hbody : body = pre ++ (if t.message ≠ [] then LF :: t.message else []) := by
    refine withHeader_inj ((framed_eq hb).symm.trans ?_)
    have he := hw t.message
    rw [show ({ t with message := t.message } : Tag) = t from rfl, e] at he
    exact Res.ok.inj he
  refine ⟨_, _, hw _, framed_withHeader _ _, ?_, ?_⟩
  · intro hm
    rw [if_pos (by simp [hs0])]
    rw [if_pos hm] at hbody
    have hne : ¬ body = [] := by rw [hbody]; simp
    have hlast : body.getLast? = t.message.getLast? := by
      rw [hbody, List.getLast?_append, List.getLast?_cons]
      cases hl : t.message.getLast? with
      | none => exact absurd (List.getLast?_eq_none_iff.1 hl) hm
      | some c => simp
    constructor
    · rintro ⟨_, h2, _⟩
      rcases h2 with h2 | h2
      · exact absurd h2 hne
      · rwa [hlast] at h2
    · intro hl
      exact ⟨by rw [hbody]; simp, .inr (hlast.trans hl), hs⟩
  · intro hm
    rw [if_pos (by simp [hs0])]
    rw [if_neg (by simp [hm])] at hbody
    refine ⟨by rw [hbody, hm]; simp, .inr (by simp), hs⟩

namespace TagSignExample

def toSign : Tag :=
  { object := gitLink (List.replicate 20 1), typ := b!"commit", tag := b!"v1",
    tagger := { name := b!"A", email := b!"a", date := b!"1", timezone := b!"+0000" }, message := b!"First\n" }

/-- Any format can be used: here SSH. -/
theorem ssh_ok : TagSig (armourText .ssh [b!"U1NIU0lH"]) :=
  armour_tagSig (.ssh _ [] (by
    intro x hx
    rw [List.mem_singleton.1 hx]
    exact ⟨by decide, by decide⟩)) (by decide)

example : ∃ enc body enc' body', encTag toSign = .ok enc ∧ Framed b!"tag" body enc ∧
    encTag { toSign with message := b!"First\n" ++ armourText .ssh [b!"U1NIU0lH"] } = .ok enc' ∧ Framed b!"tag" body' enc' ∧
    GitTagSigned body' body (armourText .ssh [b!"U1NIU0lH"]) := by
  obtain ⟨enc', body', h1, h2, h3, _⟩ := sign_tag (t := toSign) rfl (framed_withHeader _ _) ssh_ok
  exact ⟨_, _, enc', body', rfl, framed_withHeader _ _, h1, h2, (h3 (by decide)).2 rfl⟩

end TagSignExample

end Verif.Props
