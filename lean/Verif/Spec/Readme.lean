import Verif.Spec.Build

/-!
# Specification: the forms in the README

/repo/README.md shows each type as JSON "real data would look something like". Here
are these forms as plain maps, with any values. /repo/README.md:54-76 (commit),
90-106 (tag), 119-133 (tree), 141-145 (blob).
-/

namespace Verif.Spec

open Verif

/-- The keys of a commit in the README. -/
def commitForm : List Bytes := [b!"author", b!"committer", b!"message", b!"parents", b!"tree"]

/-- The keys of a tag in the README. -/
def tagForm : List Bytes := [b!"message", b!"object", b!"tag", b!"tagger", b!"type"]

/-- The keys of its tagger: the time zone is part of the date. -/
def taggerForm : List Bytes := [b!"date", b!"email", b!"name"]

/-- An author or committer. /repo/README.md:58-63. -/
def readmePerson (date zone email name : Bytes) : Node :=
  .map [(b!"date", .str date), (b!"timezone", .str zone), (b!"email", .str email), (b!"name", .str name)]

/-- A commit. /repo/README.md:57-75. -/
def readmeCommit (author committer : Node) (message : Bytes) (parents : List Link) (tree : Link) : Node :=
  .map [(b!"author", author), (b!"committer", committer), (b!"message", .str message),
    (b!"parents", .list (parents.map .link)), (b!"tree", .link tree)]

/-- A tag. /repo/README.md:93-105. -/
def readmeTag (message : Bytes) (object : Link) (tag date email name type : Bytes) : Node :=
  .map [(b!"message", .str message), (b!"object", .link object), (b!"tag", .str tag),
    (b!"tagger", .map [(b!"date", .str date), (b!"email", .str email), (b!"name", .str name)]),
    (b!"type", .str type)]

/-- An entry of a tree. /repo/README.md:123-126. -/
def readmeEntry (mode : Bytes) (hash : Link) : Node := .map [(b!"mode", .str mode), (b!"hash", .link hash)]

/-- A tree. /repo/README.md:122-132. -/
def readmeTree (rows : List (Bytes × Bytes × Link)) : Node := .map (rows.map fun r => (r.1, readmeEntry r.2.1 r.2.2))

end Verif.Spec
