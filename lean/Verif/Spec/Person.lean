import Verif.Model.Types

/-!
# Which persons the git line format can express

`name <email> date tz`: the format has no escaping, so the separators must not
occur inside the fields.
-/

namespace Verif.Spec

/-- The person can be written on a line and read back. -/
structure PersonOk (p : PersonInfo) : Prop where
  /-- the name does not start with a space or with `<` -/
  nameStart : p.name.head? ≠ some SP ∧ p.name.head? ≠ some LT
  /-- the name does not contain " <" -/
  nameOpen : ¬ b!" <" <:+: p.name
  /-- the email does not contain " <" -/
  emailOpen : ¬ b!" <" <:+: p.email
  /-- the email does not contain "> " -/
  emailClose : ¬ b!"> " <:+: p.email
  /-- date and timezone are single words -/
  dateWord : SP ∉ p.date
  tzWord : SP ∉ p.timezone
  /-- no timezone without a date -/
  tzDate : p.timezone ≠ [] → p.date ≠ []

end Verif.Spec
