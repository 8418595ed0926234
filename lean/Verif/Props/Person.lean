import Verif.Proofs.Person
import Verif.Props.Tag

/-!
# Person lines: C19, C20
-/

namespace Verif.Props

open Verif Spec

/-! ## C19 Person line round trip -/

theorem gitString_personText (p : PersonInfo) : gitString p = personText p := by
  unfold gitString personText
  by_cases h1 : p.date = [] <;> by_cases h2 : p.timezone = [] <;> simp [h1, h2]

/-- Formatting a person gives `name <email> date tz`, and parsing that line (after
any word) gives the person back exactly when the format can express it. -/
theorem person_roundtrip (w : Bytes) (p : PersonInfo) (hw : SP ∉ w) :
    gitString p = personText p ∧
      (parsePersonInfo (w ++ SP :: gitString p) = .ok p ↔ PersonOk p) :=
  ⟨gitString_personText p, parse_gitString_iff w p hw⟩

/-- Persons that the format can express are told apart by their lines. -/
theorem person_injective (p q : PersonInfo) (hp : PersonOk p) (hq : PersonOk q)
    (h : gitString p = gitString q) : p = q := by
  have h1 := (parse_gitString_iff b!"author" p (by decide)).2 hp
  have h2 := (parse_gitString_iff b!"author" q (by decide)).2 hq
  rw [h, h2] at h1
  simpa using h1.symm

/-- What is parsed once is stable: if the person has an expressible email and no
gap between the fields, formatting and parsing again changes nothing. -/
theorem person_parsed_stable (w line : Bytes) (p : PersonInfo) (hw : SP ∉ w)
    (h : parsePersonInfo line = .ok p) :
    parsePersonInfo (w ++ SP :: gitString p) = .ok p ↔
      (¬ b!" <" <:+: p.email ∧ (p.timezone ≠ [] → p.date ≠ [])) := by
  rw [parse_gitString_iff w p hw]
  obtain ⟨h1, h2, h3, h4, h5⟩ := parsed_person line p h
  exact ⟨fun hp => ⟨hp.emailOpen, hp.tzDate⟩, fun ⟨he, ht⟩ => ⟨h1, h2, he, h3, h4, h5, ht⟩⟩

/-- A person with an empty name and a multi-word email with stray brackets and no
timezone. -/
example : PersonOk ⟨b!"", b!"a<b c>d<", b!"12", b!""⟩ :=
  ⟨by decide, (not_infix_iff _ _).2 (by decide), (not_infix_iff _ _).2 (by decide),
    (not_infix_iff _ _).2 (by decide), by decide, by decide, by decide⟩

/-- The format cannot express a timezone without a date: it is read as the date. -/
example : parsePersonInfo (b!"author" ++ SP :: gitString ⟨b!"A", b!"a", b!"", b!"+01"⟩) =
    .ok ⟨b!"A", b!"a", b!"+01", b!""⟩ := by decide

/-! ## C20 Person lines are preserved -/

/-- Which lines survive: exactly those that write down an expressible person. -/
theorem person_line_preserved (w x : Bytes) (hw : SP ∉ w) :
    (∃ p, parsePersonInfo (w ++ SP :: x) = .ok p ∧ gitString p = x) ↔
      ∃ p, PersonOk p ∧ x = personText p := by
  constructor
  · rintro ⟨p, h, rfl⟩
    exact ⟨p, (parse_gitString_iff w p hw).1 h, gitString_personText p⟩
  · rintro ⟨p, h, rfl⟩
    rw [← gitString_personText]
    exact ⟨p, (parse_gitString_iff w p hw).2 h, rfl⟩

/-- A person as git records it (`ident.c`): no angle brackets or line feeds in
name and email, no space around the name, a decimal time stamp and a signed
decimal timezone. -/
structure GitIdent (p : PersonInfo) : Prop where
  name : ∀ c ∈ p.name, c ≠ LT ∧ c ≠ GT ∧ c ≠ LF
  nameStart : p.name.head? ≠ some SP
  nameEnd : p.name.getLast? ≠ some SP
  email : ∀ c ∈ p.email, c ≠ LT ∧ c ≠ GT ∧ c ≠ LF
  date : p.date ≠ [] ∧ ∀ c ∈ p.date, Digit c
  timezone : ∃ sign ds, p.timezone = sign :: ds ∧ (sign = 43 ∨ sign = 45) ∧ ds ≠ [] ∧ ∀ c ∈ ds, Digit c

/-- Every person line that git writes is parsed into its fields and reproduced. -/
theorem person_git_line (w : Bytes) (p : PersonInfo) (hw : SP ∉ w) (h : GitIdent p) :
    let line := w ++ b!" " ++ p.name ++ b!" <" ++ p.email ++ b!"> " ++ p.date ++ b!" " ++ p.timezone
    parsePersonInfo line = .ok p ∧ w ++ SP :: gitString p = line := by
  obtain ⟨sign, ds, htz, hs, hne, hds⟩ := h.timezone
  have hdig : ∀ l : Bytes, (∀ c ∈ l, Digit c) → SP ∉ l := by
    intro l hl hm
    have := hl _ hm
    exact absurd this (by unfold Digit; decide)
  have hok : PersonOk p := by
    refine ⟨⟨h.nameStart, ?_⟩, ?_, ?_, ?_, hdig _ h.date.2, ?_, fun _ => h.date.1⟩
    · intro hh
      cases hn : p.name with
      | nil => rw [hn] at hh; simp at hh
      | cons c cs =>
        rw [hn] at hh
        simp only [List.head?_cons, Option.some.injEq] at hh
        exact (h.name c (by rw [hn]; simp)).1 hh
    · intro hi
      exact (h.name LT (hi.subset (by simp))).1 rfl
    · intro hi
      exact (h.email LT (hi.subset (by simp))).1 rfl
    · intro hi
      exact (h.email GT (hi.subset (by simp))).2.1 rfl
    · rw [htz]
      intro hm
      rcases List.mem_cons.1 hm with hm | hm
      · rcases hs with rfl | rfl <;> exact absurd hm (by decide)
      · exact hdig _ hds hm
  have hline : w ++ SP :: gitString p =
      w ++ b!" " ++ p.name ++ b!" <" ++ p.email ++ b!"> " ++ p.date ++ b!" " ++ p.timezone := by
    unfold gitString
    rw [if_pos h.date.1, if_pos (by rw [htz]; simp)]
    simp
  simp only
  rw [← hline]
  exact ⟨(parse_gitString_iff w p hw).2 hok, rfl⟩

example : GitIdent samplePerson :=
  ⟨by decide, by decide, by decide, by decide, ⟨by decide, by simp [samplePerson, Digit]⟩,
    43, b!"0100", rfl, by decide, by decide, by simp [Digit]⟩

/-- Lines that are accepted and not preserved: further words after the timezone,
more than one space after the email, a second `<`, leading spaces. -/
theorem person_line_changed :
    (∃ p, parsePersonInfo b!"author A <a> 1 +0 x" = .ok p ∧ gitString p = b!"A <a> 1 +0") ∧
    (∃ p, parsePersonInfo b!"author A <a>  1 +0" = .ok p ∧ gitString p = b!"A <a> 1") ∧
    (∃ p, parsePersonInfo b!"author A <a <b> 1 +0" = .ok p ∧ gitString p = b!"A <a b> 1 +0") ∧
    (∃ p, parsePersonInfo b!"author   A <a> 1 +0" = .ok p ∧ gitString p = b!"A <a> 1 +0") :=
  ⟨⟨⟨b!"A", b!"a", b!"1", b!"+0"⟩, by decide, by decide⟩, ⟨⟨b!"A", b!"a", b!"", b!"1"⟩, by decide, by decide⟩,
    ⟨⟨b!"A", b!"a b", b!"1", b!"+0"⟩, by decide, by decide⟩, ⟨⟨b!"A", b!"a", b!"1", b!"+0"⟩, by decide, by decide⟩⟩

end Verif.Props
