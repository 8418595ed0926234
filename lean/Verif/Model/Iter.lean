import Verif.Model.Node

/-!
# Map iterators of the generated struct types

`_X__MapItr` and `_X__ReprMapItr` in /repo/ipldsch_satisfaction.go: a node and an
index; `Next` switches over the index.
-/

namespace Verif

/-- What one call of `Next` does: report an entry and set the index, or return
`ErrIteratorOverread`. /repo/ipldsch_satisfaction.go:353-406. -/
abbrev ItrStep := Res ((Bytes × Node) × Nat)

/-- `_PersonInfo__MapItr.Next`, 3117-3139. -/
def personNext (p : PersonInfo) (idx : Nat) : ItrStep :=
  if idx ≥ 4 then .err .iterOver
  else match idx with
  | 0 => .ok ((b!"date", .own (.string p.date)), idx + 1)
  | 1 => .ok ((b!"timezone", .own (.string p.timezone)), idx + 1)
  | 2 => .ok ((b!"email", .own (.string p.email)), idx + 1)
  | 3 => .ok ((b!"name", .own (.string p.name)), idx + 1)
  | _ => .panic

/-- `_PersonInfo__ReprMapItr.Next`, 3655-3677. -/
def personReprNext (p : PersonInfo) (idx : Nat) : ItrStep :=
  if idx ≥ 4 then .err .iterOver
  else match idx with
  | 0 => .ok ((b!"date", (Own.string p.date).representation), idx + 1)
  | 1 => .ok ((b!"timezone", (Own.string p.timezone).representation), idx + 1)
  | 2 => .ok ((b!"email", (Own.string p.email).representation), idx + 1)
  | 3 => .ok ((b!"name", (Own.string p.name).representation), idx + 1)
  | _ => .panic

/-- `_TreeEntry__MapItr.Next`, 7544-7560. -/
def treeEntryNext (e : TreeEntry) (idx : Nat) : ItrStep :=
  if idx ≥ 2 then .err .iterOver
  else match idx with
  | 0 => .ok ((b!"mode", .own (.string e.mode)), idx + 1)
  | 1 => .ok ((b!"hash", .own (.link e.hash)), idx + 1)
  | _ => .panic

/-- `_TreeEntry__ReprMapItr.Next`, 7994-8010. -/
def treeEntryReprNext (e : TreeEntry) (idx : Nat) : ItrStep :=
  if idx ≥ 2 then .err .iterOver
  else match idx with
  | 0 => .ok ((b!"mode", (Own.string e.mode).representation), idx + 1)
  | 1 => .ok ((b!"hash", (Own.link e.hash).representation), idx + 1)
  | _ => .panic

/-- `_Tag__MapItr.Next`, 5026-5051. -/
def tagNext (t : Tag) (idx : Nat) : ItrStep :=
  if idx ≥ 5 then .err .iterOver
  else match idx with
  | 0 => .ok ((b!"object", .own (.link t.object)), idx + 1)
  | 1 => .ok ((b!"type", .own (.string t.typ)), idx + 1)
  | 2 => .ok ((b!"tag", .own (.string t.tag)), idx + 1)
  | 3 => .ok ((b!"tagger", .own (.person t.tagger)), idx + 1)
  | 4 => .ok ((b!"message", .own (.string t.message)), idx + 1)
  | _ => .panic

/-- `_Tag__ReprMapItr.Next`, 5608-5633. -/
def tagReprNext (t : Tag) (idx : Nat) : ItrStep :=
  if idx ≥ 5 then .err .iterOver
  else match idx with
  | 0 => .ok ((b!"object", (Own.link t.object).representation), idx + 1)
  | 1 => .ok ((b!"type", (Own.string t.typ).representation), idx + 1)
  | 2 => .ok ((b!"tag", (Own.string t.tag).representation), idx + 1)
  | 3 => .ok ((b!"tagger", (Own.person t.tagger).representation), idx + 1)
  | 4 => .ok ((b!"message", (Own.string t.message).representation), idx + 1)
  | _ => .panic

/-- `_Commit__MapItr.Next`, 353-406. -/
def commitNext (c : Commit) (idx : Nat) : ItrStep :=
  if idx ≥ 9 then .err .iterOver
  else match idx with
  | 0 => .ok ((b!"tree", .own (.treeLink c.tree)), idx + 1)
  | 1 => .ok ((b!"parents", .own (.linkList c.parents)), idx + 1)
  | 2 => .ok ((b!"message", .own (.string c.message)), idx + 1)
  | 3 => .ok ((b!"author", optNode .person c.author), idx + 1)
  | 4 => .ok ((b!"committer", optNode .person c.committer), idx + 1)
  | 5 => .ok ((b!"encoding", optNode .string c.encoding), idx + 1)
  | 6 => .ok ((b!"signature", optNode .gpgSig c.signature), idx + 1)
  | 7 => .ok ((b!"mergetag", .own (.tagList c.mergetag)), idx + 1)
  | 8 => .ok ((b!"other", .own (.stringList c.other)), idx + 1)
  | _ => .panic

/-- One case of `_Commit__ReprMapItr.Next` for an optional field: `some` is the
reported value, `none` is `itr.idx++; goto advance`.
/repo/ipldsch_satisfaction.go:1136-1165. -/
def optStep {α : Type} (f : α → Own) : Option α → Option Node
  | none => none
  | some a => some (f a).representation

/-- `_Commit__ReprMapItr.Next`, 1121-1175, with a bound on the number of jumps to
`advance`. -/
def commitReprNextLoop (c : Commit) : Nat → Nat → ItrStep
  | 0, _ => .err .fuel
  | fuel + 1, idx =>
    if idx ≥ 9 then .err .iterOver
    else
      let report (k : Bytes) : Option Node → ItrStep
        | none => commitReprNextLoop c fuel (idx + 1)
        | some v => .ok ((k, v), idx + 1)
      match idx with
      | 0 => report b!"tree" (some (Own.treeLink c.tree).representation)
      | 1 => report b!"parents" (some (Own.linkList c.parents).representation)
      | 2 => report b!"message" (some (Own.string c.message).representation)
      | 3 => report b!"author" (optStep .person c.author)
      | 4 => report b!"committer" (optStep .person c.committer)
      | 5 => report b!"encoding" (optStep .string c.encoding)
      | 6 => report b!"signature" (optStep .gpgSig c.signature)
      | 7 => report b!"mergetag" (some (Own.tagList c.mergetag).representation)
      | 8 => report b!"other" (some (Own.stringList c.other).representation)
      | _ => .panic

/-- `_Commit__ReprMapItr.Next`, 1121-1175. -/
def commitReprNext (c : Commit) (idx : Nat) : ItrStep := commitReprNextLoop c 10 idx

/-- A struct iterator: `Next` and the bound that `Done` compares the index with
(407, 1176, 3140, 3678, 5052, 5634, 7561, 8011). -/
structure StructItr where
  next : Nat → ItrStep
  bound : Nat

/-- The typed view's `MapIterator()` (345, 3109, 5018, 7536). -/
def Own.itr : Own → Option StructItr
  | .person p => some ⟨personNext p, 4⟩
  | .treeEntry e => some ⟨treeEntryNext e, 2⟩
  | .tag t => some ⟨tagNext t, 5⟩
  | .commit c => some ⟨commitNext c, 9⟩
  | _ => none

/-- The representation view's `MapIterator()` (1112, 3646, 5599, 7985). -/
def Own.reprItr : Own → Option StructItr
  | .person p => some ⟨personReprNext p, 4⟩
  | .treeEntry e => some ⟨treeEntryReprNext e, 2⟩
  | .tag t => some ⟨tagReprNext t, 5⟩
  | .commit c => some ⟨commitReprNext c, 9⟩
  | _ => none

/-- `Done()`. /repo/ipldsch_satisfaction.go:407-409, 1176-1178. -/
def StructItr.done (i : StructItr) (idx : Nat) : Bool := idx ≥ i.bound

/-- The client's loop `for !itr.Done() { k, v, err := itr.Next() }` from a given
index: the entries reported, with a bound on the number of steps. -/
def StructItr.runFrom (i : StructItr) : Nat → Nat → Res (List (Bytes × Node))
  | 0, idx => if i.done idx then .ok [] else .err .fuel
  | n + 1, idx =>
    if i.done idx then .ok []
    else do
      let (e, idx) ← i.next idx
      let es ← StructItr.runFrom i n idx
      .ok (e :: es)

/-- The loop on a fresh iterator. -/
def StructItr.run (i : StructItr) : Res (List (Bytes × Node)) := i.runFrom i.bound 0

end Verif
