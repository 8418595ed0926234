import Verif.Proofs.Feed

/-!
# The four struct types given call by call
-/

namespace Verif

open Spec Calls

theorem field_of {W α : Type} {p : Prop} {ty : T} {g : Node → Res α} {val : α → Val} (ha : Agree p ty g val)
    {slots : W → List (Option Val)} {w : W} {i : Nat} {n : Node} {cs : List (Nat × Call)} (hn : Feeds n cs)
    {r : Res W} (set : α → W) (hr : r = g n >>= fun a => .ok (set a))
    (hs : ∀ a, slots (set a) = (slots w).set i (some (val a))) :
    FieldMatches p ty slots w i cs r := by
  have := ha n cs hn
  subst hr
  revert this
  cases g n with
  | ok a =>
    rintro ⟨ch, h1, h2, h3⟩
    exact ⟨ch, h1, h2, by rw [h3, hs]⟩
  | err e => exact id
  | panic => exact id

def personSlots (p : PersonInfo) : List (Option Val) :=
  [some (.text p.date), some (.text p.timezone), some (.text p.email), some (.text p.name)]

theorem structOf_person (p : Prop) : ∃ fs, StructOf p personStruct .person fs personSlots .zero := by
  refine ⟨_, rfl, rfl, rfl, fun _ => rfl, ?_, ?_, ?_⟩
  · intro i fd h hr
    match i, h with
    | 0, h => cases h; cases hr
    | 1, h => cases h; cases hr
    | 2, h => cases h; cases hr
    | 3, h => cases h; cases hr
    | i + 4, h => cases h
  · intro i f fd hf hfd w n cs hz hn
    match i, hf, hfd with
    | 0, hf, hfd => cases hf; cases hfd; exact field_of (agree_string p) hn _ rfl fun _ => rfl
    | 1, hf, hfd => cases hf; cases hfd; exact field_of (agree_string p) hn _ rfl fun _ => rfl
    | 2, hf, hfd => cases hf; cases hfd; exact field_of (agree_string p) hn _ rfl fun _ => rfl
    | 3, hf, hfd => cases hf; cases hfd; exact field_of (agree_string p) hn _ rfl fun _ => rfl
    | i + 4, hf, hfd => cases hf
  · intro n h
    cases n <;> first | rfl | exact absurd rfl (h _)

theorem agree_person (p : Prop) : Agree p .person (personStruct.child (some .zero)) personVal :=
  have ⟨_, h⟩ := structOf_person p
  agree_struct h

def treeEntrySlots (e : TreeEntry) : List (Option Val) := [some (.text e.mode), some (.link e.hash)]

theorem structOf_treeEntry (p : Prop) :
    ∃ fs, StructOf p treeEntryStruct .treeEntry fs treeEntrySlots ⟨[], .nil⟩ := by
  refine ⟨_, rfl, rfl, rfl, fun _ => rfl, ?_, ?_, ?_⟩
  · intro i fd h hr
    match i, h with
    | 0, h => cases h; cases hr
    | 1, h => cases h; cases hr
    | i + 2, h => cases h
  · intro i f fd hf hfd w n cs hz hn
    match i, hf, hfd with
    | 0, hf, hfd => cases hf; cases hfd; exact field_of (agree_string p) hn _ rfl fun _ => rfl
    | 1, hf, hfd => cases hf; cases hfd; exact field_of (agree_lnk p) hn _ rfl fun _ => rfl
    | i + 2, hf, hfd => cases hf
  · intro n h
    cases n <;> first | rfl | exact absurd rfl (h _)

theorem agree_treeEntry (p : Prop) : Agree p .treeEntry (treeEntryStruct.child (some ⟨[], .nil⟩)) treeEntryVal :=
  have ⟨_, h⟩ := structOf_treeEntry p
  agree_struct h

theorem personVal_inj {p q : PersonInfo} (h : personVal p = personVal q) : p = q := by
  obtain ⟨a, b, c, d⟩ := p
  obtain ⟨a', b', c', d'⟩ := q
  simp only [personVal, Val.struct.injEq, List.cons.injEq, Option.some.injEq, Val.text.injEq, and_true] at h
  obtain ⟨h1, h2, h3, h4⟩ := h
  simp_all

def tagSlots (t : Tag) : List (Option Val) :=
  [some (.link t.object), some (.text t.typ), some (.text t.tag), some (personVal t.tagger), some (.text t.message)]

theorem structOf_tag (p : Prop) : ∃ fs, StructOf p tagStruct .tag fs tagSlots .zero := by
  refine ⟨_, rfl, rfl, rfl, fun _ => rfl, ?_, ?_, ?_⟩
  · intro i fd h hr
    match i, h with
    | 0, h => cases h; cases hr
    | 1, h => cases h; cases hr
    | 2, h => cases h; cases hr
    | 3, h => cases h; cases hr
    | 4, h => cases h; cases hr
    | i + 5, h => cases h
  · intro i f fd hf hfd w n cs hz hn
    match i, hf, hfd with
    | 0, hf, hfd => cases hf; cases hfd; exact field_of (agree_lnk p) hn _ rfl fun _ => rfl
    | 1, hf, hfd => cases hf; cases hfd; exact field_of (agree_string p) hn _ rfl fun _ => rfl
    | 2, hf, hfd => cases hf; cases hfd; exact field_of (agree_string p) hn _ rfl fun _ => rfl
    | 3, hf, hfd =>
      cases hf; cases hfd
      have hz' : w.tagger = .zero := personVal_inj (by simpa [tagSlots, Tag.zero] using hz)
      exact field_of (agree_person p) hn (fun q => { w with tagger := q }) (by simp only [hz']) fun _ => rfl
    | 4, hf, hfd => cases hf; cases hfd; exact field_of (agree_string p) hn _ rfl fun _ => rfl
    | i + 5, hf, hfd => cases hf
  · intro n h
    cases n <;> first | rfl | exact absurd rfl (h _)

theorem agree_tag (p : Prop) : Agree p .tag (tagStruct.child (some .zero)) tagVal :=
  have ⟨_, h⟩ := structOf_tag p
  agree_struct h

theorem agree_linkList (p : Prop) : Agree p .linkList (assignLinkList []) (fun l => .list (l.map .link)) :=
  agree_list rfl (agree_commitLink p) _ fun n h => by cases n <;> first | rfl | exact absurd rfl (h _)

theorem agree_stringList (p : Prop) : Agree p .stringList (assignStringList []) (fun l => .list (l.map .text)) :=
  agree_list rfl (agree_string p) _ fun n h => by cases n <;> first | rfl | exact absurd rfl (h _)

theorem agree_tagList (p : Prop) : Agree p .tagList (assignTagList []) (fun l => .list (l.map tagVal)) :=
  agree_list rfl (agree_tag p) _ fun n h => by cases n <;> first | rfl | exact absurd rfl (h _)

/-- With a nil pointer a struct assembler does what it does with a zero value, or
panics. -/
theorem struct_child_none {W : Type} (S : Struct W) (z : W) (n : Node) :
    S.child none n = .panic ∨ S.child none n = S.child (some z) n := by
  unfold Struct.child Struct.assignNode
  by_cases hn : n.isNull = true
  · right; simp [hn, Asm.fresh]
  · simp only [hn]
    cases S.self n with
    | some v => right; simp [Asm.fresh, Asm.build]
    | none =>
      simp only
      by_cases hk : n.kind ≠ .map
      · right; simp [hk]
      · simp only [if_neg hk]
        cases n.mapIterator with
        | none => left; rfl
        | some es =>
          cases es with
          | nil =>
            simp only [Struct.assignEntries, Struct.finish, Struct.ready, Asm.fresh, Res.bind_ok]
            by_cases hs : 0 &&& S.sufficient ≠ S.sufficient
            · right; simp only [if_pos hs]
            · left; simp only [if_neg hs]; rfl
          | cons x r =>
            obtain ⟨k, v⟩ := x
            simp only [Struct.assignEntries, Struct.assembleKey, Struct.ready, Asm.fresh, Res.bind_ok,
              Struct.keyAssignNode, Node.asString, Struct.keyAssignString, ne_eq, not_true_eq_false, if_false]
            cases S.find k with
            | none => right; rfl
            | some i =>
              simp only
              by_cases hb : ¬ (0 &&& (1 <<< i) = 0)
              · right; simp only [if_pos hb]
              · left; simp only [if_neg hb]; rfl

/-- The commit struct with author and committer assembled in place, as `BeginMap` does. -/
def commitInPlace : Struct Commit where
  fields := [
    ⟨b!"tree", true, fun c n => do .ok { c with tree := ← assignTreeLink n }⟩,
    ⟨b!"parents", true, fun c n => do .ok { c with parents := ← assignLinkList c.parents n }⟩,
    ⟨b!"message", true, fun c n => do .ok { c with message := ← assignString n }⟩,
    ⟨b!"author", false, fun c n => do
      .ok { c with author := ← assignOnce c.author (personStruct.child (some .zero) n) }⟩,
    ⟨b!"committer", false, fun c n => do
      .ok { c with committer := ← assignOnce c.committer (personStruct.child (some .zero) n) }⟩,
    ⟨b!"encoding", false, fun c n => do
      .ok { c with encoding := ← assignOnce c.encoding (assignString n) }⟩,
    ⟨b!"signature", false, fun c n => do
      .ok { c with signature := ← assignOnce c.signature (assignGpgSig n) }⟩,
    ⟨b!"mergetag", true, fun c n => do .ok { c with mergetag := ← assignTagList c.mergetag n }⟩,
    ⟨b!"other", true, fun c n => do .ok { c with other := ← assignStringList c.other n }⟩]
  self := fun | .own (.commit c) => some c | _ => none

def commitSlots (c : Commit) : List (Option Val) :=
  [some (.link c.tree), some (.list (c.parents.map .link)), some (.text c.message),
    c.author.map personVal, c.committer.map personVal, c.encoding.map .text, c.signature.map .text,
    some (.list (c.mergetag.map tagVal)), some (.list (c.other.map .text))]

theorem structOf_commitInPlace (p : Prop) : ∃ fs, StructOf p commitInPlace .commit fs commitSlots .zero := by
  refine ⟨_, rfl, rfl, rfl, fun _ => rfl, ?_, ?_, ?_⟩
  · intro i fd h hr
    match i, h with
    | 0, h => cases h; cases hr
    | 1, h => cases h; cases hr
    | 2, h => cases h; cases hr
    | 3, h => rfl
    | 4, h => rfl
    | 5, h => rfl
    | 6, h => rfl
    | 7, h => cases h; cases hr
    | 8, h => cases h; cases hr
    | i + 9, h => cases h
  · intro i f fd hf hfd w n cs hz hn
    match i, hf, hfd with
    | 0, hf, hfd => cases hf; cases hfd; exact field_of (agree_treeLink p) hn _ rfl fun _ => rfl
    | 1, hf, hfd =>
      cases hf; cases hfd
      have hz' : w.parents = [] := by simpa [commitSlots, Commit.zero] using hz
      exact field_of (agree_linkList p) hn (fun q => { w with parents := q }) (by simp only [hz']) fun _ => rfl
    | 2, hf, hfd => cases hf; cases hfd; exact field_of (agree_string p) hn _ rfl fun _ => rfl
    | 3, hf, hfd =>
      cases hf; cases hfd
      have hz' : w.author = none := by simpa [commitSlots, Commit.zero] using hz
      exact field_of (agree_person p) hn (fun q => { w with author := some q })
        (by simp only [hz', assignOnce]; cases personStruct.child (some .zero) n <;> rfl) fun _ => rfl
    | 4, hf, hfd =>
      cases hf; cases hfd
      have hz' : w.committer = none := by simpa [commitSlots, Commit.zero] using hz
      exact field_of (agree_person p) hn (fun q => { w with committer := some q })
        (by simp only [hz', assignOnce]; cases personStruct.child (some .zero) n <;> rfl) fun _ => rfl
    | 5, hf, hfd =>
      cases hf; cases hfd
      have hz' : w.encoding = none := by simpa [commitSlots, Commit.zero] using hz
      exact field_of (agree_string p) hn (fun q => { w with encoding := some q })
        (by simp only [hz', assignOnce]; cases assignString n <;> rfl) fun _ => rfl
    | 6, hf, hfd =>
      cases hf; cases hfd
      have hz' : w.signature = none := by simpa [commitSlots, Commit.zero] using hz
      exact field_of (agree_gpgSig p) hn (fun q => { w with signature := some q })
        (by simp only [hz', assignOnce]; cases assignGpgSig n <;> rfl) fun _ => rfl
    | 7, hf, hfd =>
      cases hf; cases hfd
      have hz' : w.mergetag = [] := by simpa [commitSlots, Commit.zero] using hz
      exact field_of (agree_tagList p) hn (fun q => { w with mergetag := q }) (by simp only [hz']) fun _ => rfl
    | 8, hf, hfd =>
      cases hf; cases hfd
      have hz' : w.other = [] := by simpa [commitSlots, Commit.zero] using hz
      exact field_of (agree_stringList p) hn (fun q => { w with other := q }) (by simp only [hz']) fun _ => rfl
    | i + 9, hf, hfd => cases hf
  · intro n h
    cases n <;> first | rfl | exact absurd rfl (h _)

theorem agree_commitInPlace (p : Prop) : Agree p .commit (commitInPlace.child (some .zero)) commitVal :=
  have ⟨_, h⟩ := structOf_commitInPlace p
  agree_struct h

theorem agree_person_none : Agree True .person (personStruct.child none) personVal := by
  intro n cs h
  rcases struct_child_none personStruct .zero n with h' | h'
  · rw [h']; trivial
  · rw [h']; exact agree_person True n cs h

theorem structOf_commit : ∃ fs, StructOf True commitStruct .commit fs commitSlots .zero := by
  obtain ⟨fs, h⟩ := structOf_commitInPlace True
  refine ⟨fs, h.shape, h.names, h.required, h.len, h.optional, ?_, h.foreign⟩
  have hfs : T.commit.shape = .struct fs := h.shape
  cases hfs
  intro i f fd hf hfd w n cs hz hn
  match i, hf, hfd with
  | 3, hf, hfd =>
    cases hf; cases hfd
    have hz' : w.author = none := by simpa [commitSlots, Commit.zero] using hz
    exact field_of agree_person_none hn (fun q => { w with author := some q })
      (by simp only [hz', assignOnce]; cases personStruct.child none n <;> rfl) fun _ => rfl
  | 4, hf, hfd =>
    cases hf; cases hfd
    have hz' : w.committer = none := by simpa [commitSlots, Commit.zero] using hz
    exact field_of agree_person_none hn (fun q => { w with committer := some q })
      (by simp only [hz', assignOnce]; cases personStruct.child none n <;> rfl) fun _ => rfl
  | 0, hf, hfd => exact h.field 0 _ _ hf hfd w n cs hz hn
  | 1, hf, hfd => exact h.field 1 _ _ hf hfd w n cs hz hn
  | 2, hf, hfd => exact h.field 2 _ _ hf hfd w n cs hz hn
  | 5, hf, hfd => exact h.field 5 _ _ hf hfd w n cs hz hn
  | 6, hf, hfd => exact h.field 6 _ _ hf hfd w n cs hz hn
  | 7, hf, hfd => exact h.field 7 _ _ hf hfd w n cs hz hn
  | 8, hf, hfd => exact h.field 8 _ _ hf hfd w n cs hz hn
  | i + 9, hf, hfd => cases hf

theorem agree_commit : Agree True .commit (commitStruct.child (some .zero)) commitVal :=
  have ⟨_, h⟩ := structOf_commit
  agree_struct h

end Verif
