import Verif.Spec.Readme
import Verif.Props.Outcome
import Verif.Props.TreeFeed
import Verif.Props.BlobMade

/-!
# C120 The forms that the README shows
-/

namespace Verif.Props

open Verif Spec Calls

/-- An assembler that has been given the fields `s`, the last of them `f`. -/
def fedAsm {W : Type} (w : W) (s f : Nat) : Asm W := { w := some w, m := .absent, state := .midValue, s, f, cm := .value }

theorem readme_first {W : Type} (S : Struct W) {k : Bytes} {v : Node} {r : List (Bytes × Node)} {w : W} {i : Nat} {fd : Field W}
    {w' : W} (hi : S.find k = some i) (hf : S.fields[i]? = some fd) (hv : fd.assign w v = .ok w') :
    S.assignEntries ((k, v) :: r) (Asm.fresh (some w)) = S.assignEntries r (fedAsm w' (1 <<< i) i) := by
  have hlt : i < S.fields.length := (List.getElem?_eq_some_iff.1 hf).1
  simp only [Struct.assignEntries, Struct.assembleKey, Struct.ready, Asm.fresh, Res.bind_ok, Struct.keyAssignNode, Node.asString,
    Struct.keyAssignString, hi, Nat.zero_and, Nat.zero_add, ne_eq, not_true_eq_false, if_false, Struct.assembleValue, hlt, if_true,
    Struct.childAssign, hf, hv]
  rfl

theorem readme_next {W : Type} (S : Struct W) {k : Bytes} {v : Node} {r : List (Bytes × Node)} {w : W} {i s f : Nat} {fd : Field W}
    {w' : W} (hl : f < S.fields.length) (hi : S.find k = some i) (hf : S.fields[i]? = some fd) (hs : s &&& (1 <<< i) = 0)
    (hv : fd.assign w v = .ok w') :
    S.assignEntries ((k, v) :: r) (fedAsm w s f) = S.assignEntries r (fedAsm w' (s + 1 <<< i) i) := by
  have hlt : i < S.fields.length := (List.getElem?_eq_some_iff.1 hf).1
  simp only [Struct.assignEntries, Struct.assembleKey, Struct.ready, fedAsm, Struct.tidy, hl, if_true, Res.bind_ok, Struct.keyAssignNode,
    Node.asString, Struct.keyAssignString, hi, hs, ne_eq, not_true_eq_false, if_false, Struct.assembleValue, hlt,
    Struct.childAssign, hf, hv]

theorem readme_bad {W : Type} (S : Struct W) {k : Bytes} {v : Node} {r : List (Bytes × Node)} {w : W} {i s f : Nat} {fd : Field W}
    {e : Err} (hl : f < S.fields.length) (hi : S.find k = some i) (hf : S.fields[i]? = some fd) (hs : s &&& (1 <<< i) = 0)
    (hv : fd.assign w v = .err e) : S.assignEntries ((k, v) :: r) (fedAsm w s f) = .err e := by
  have hlt : i < S.fields.length := (List.getElem?_eq_some_iff.1 hf).1
  simp only [Struct.assignEntries, Struct.assembleKey, Struct.ready, fedAsm, Struct.tidy, hl, if_true, Res.bind_ok, Struct.keyAssignNode,
    Node.asString, Struct.keyAssignString, hi, hs, ne_eq, not_true_eq_false, if_false, Struct.assembleValue, hlt,
    Struct.childAssign, hf, hv]
  rfl

theorem readme_lacks {W : Type} (S : Struct W) {w : W} {s f : Nat} (hl : f < S.fields.length)
    (h : s &&& S.sufficient ≠ S.sufficient) : S.assignEntries [] (fedAsm w s f) = .err .missingField := by
  simp only [Struct.assignEntries, Struct.finish, Struct.ready, fedAsm, Struct.tidy, hl, if_true, Res.bind_ok, ne_eq, h, not_false_eq_true]

theorem readme_person (d z e n : Bytes) : personStruct.child (some .zero) (readmePerson d z e n) = .ok ⟨n, e, d, z⟩ := by
  rw [show personStruct.child (some .zero) (readmePerson d z e n) = buildPerson (readmePerson d z e n) from rfl]
  refine (build_person _ _).2 ⟨_, rfl, ?_⟩
  simp [KeysOk, At, StrNode, Node.kind, Node.asString]

theorem readme_links (ps : List Link) : assignLinkList [] (.list (ps.map .link)) = .ok ps := by
  refine (assignLinkList_ok _ _).2 ⟨_, rfl, ?_⟩
  induction ps with
  | nil => trivial
  | cons l ps ih => exact ⟨⟨rfl, rfl⟩, ih⟩

/-- A commit as the README shows it makes Encode panic. -/
theorem readme_commit_panics (d z e n d' z' e' n' m : Bytes) (ps : List Link) (t : Link) :
    encodeBytes (readmeCommit (readmePerson d z e n) (readmePerson d' z' e' n') m ps t) = .panic := rfl

/-- A commit builder given it call by call refuses it for the fields that are missing. -/
theorem readme_commit_missing (d z e n d' z' e' n' m : Bytes) (ps : List Link) (t : Link) {cs : List (Nat × Call)}
    (h : Feeds (readmeCommit (readmePerson d z e n) (readmePerson d' z' e' n') m ps t) cs) :
    buildBy .commit cs = .err .missingField := by
  rw [(agree_same (agree_commitInPlace False) h).1]
  have hb : commitInPlace.assignEntries [(b!"author", readmePerson d z e n), (b!"committer", readmePerson d' z' e' n'),
      (b!"message", .str m), (b!"parents", .list (ps.map .link)), (b!"tree", .link t)] (Asm.fresh (some .zero)) = .err .missingField := by
    refine (readme_first (i := 3) (w' := { Commit.zero with author := some ⟨n, e, d, z⟩ }) _ rfl rfl ?_).trans ?_
    · show (assignOnce none (personStruct.child (some .zero) (readmePerson d z e n)) >>= _) = _
      rw [readme_person]; rfl
    refine (readme_next (i := 4) (w' := { Commit.zero with author := some ⟨n, e, d, z⟩, committer := some ⟨n', e', d', z'⟩ })
      _ (by decide) rfl rfl (by decide) ?_).trans ?_
    · show (assignOnce none (personStruct.child (some .zero) (readmePerson d' z' e' n')) >>= _) = _
      rw [readme_person]; rfl
    refine (readme_next (i := 2) (w' := { Commit.zero with author := some ⟨n, e, d, z⟩, committer := some ⟨n', e', d', z'⟩, message := m })
      _ (by decide) rfl rfl (by decide) rfl).trans ?_
    refine (readme_next (i := 1)
      (w' := { Commit.zero with author := some ⟨n, e, d, z⟩, committer := some ⟨n', e', d', z'⟩, message := m, parents := ps })
      _ (by decide) rfl rfl (by decide) ?_).trans ?_
    · show (assignLinkList [] (.list (ps.map .link)) >>= _) = _
      rw [readme_links]; rfl
    refine (readme_next (i := 0)
      (w' := { Commit.zero with author := some ⟨n, e, d, z⟩, committer := some ⟨n', e', d', z'⟩, message := m, parents := ps, tree := t })
      _ (by decide) rfl rfl (by decide) rfl).trans ?_
    exact readme_lacks _ (by decide) (by decide)
  show ((commitInPlace.assignEntries _ (Asm.fresh (some .zero)) >>= fun a => a.build) >>= _) = _
  rw [hb]
  rfl

/-- Whatever values and order the keys of the README have, Encode does not write a
commit, and a commit builder does not build one: two required fields are missing. -/
theorem commit_form_refused {es : List (Bytes × Node)} (hk : (es.map Prod.fst).Perm commitForm) :
    (∀ out, encodeBytes (.map es) ≠ .ok out) ∧
    ∀ cs, Feeds (.map es) cs → ∃ e, buildBy .commit cs = .err e := by
  have hno : ∀ c, ¬ CommitNode (.map es) c := by
    rintro c ⟨es', h, hks, -⟩
    cases h
    have := hks.2.2 b!"mergetag" (by decide)
    rw [hk.mem_iff] at this
    exact absurd this (by decide)
  refine ⟨fun out h => ?_, fun cs hf => ?_⟩
  · obtain ⟨o, ho, -⟩ := Res.bind_eq_ok.1 h
    rcases encode_foreign (n := .map es) (fun o => ⟨nofun, nofun⟩) ho with ⟨h1, -⟩ | ⟨k, v, r, h1, h2⟩
    · cases h1
    · cases h1
      have hm : k ∈ commitForm := hk.mem_iff.1 (by simp)
      rcases h2 with ⟨h2, -⟩ | ⟨-, -, c, hc, -⟩
      · simp only [commitForm, List.mem_cons, List.not_mem_nil, or_false] at hm
        rcases hm with rfl | rfl | rfl | rfl | rfl <;> exact absurd h2 (by decide)
      · exact hno c hc
  · cases hb : buildBy .commit cs with
    | ok v =>
      obtain ⟨c, hc, -⟩ := (calls_build_commit hf v).1 hb
      exact absurd hc (hno c)
    | err e => exact ⟨e, rfl⟩
    | panic => exact absurd hb (calls_never_panic _ hf)

theorem readme_tagger (w : PersonInfo) (d e n : Bytes) :
    personStruct.assignEntries [(b!"date", .str d), (b!"email", .str e), (b!"name", .str n)] (Asm.fresh (some w)) = .err .missingField := by
  refine (readme_first (i := 0) (w' := { w with date := d }) _ rfl rfl rfl).trans ?_
  refine (readme_next (i := 2) (w' := { w with date := d, email := e }) _ (by decide) rfl rfl (by decide) rfl).trans ?_
  refine (readme_next (i := 3) (w' := { w with date := d, email := e, name := n }) _ (by decide) rfl rfl (by decide) rfl).trans ?_
  exact readme_lacks _ (by decide) (by decide)

theorem readme_tag (m : Bytes) (o : Link) (t : Bytes) (p : Node) (y : Bytes) (e : Err) (hp : ∀ w, personStruct.child (some w) p = .err e) :
    tagStruct.assignEntries [(b!"message", .str m), (b!"object", .link o), (b!"tag", .str t), (b!"tagger", p), (b!"type", .str y)]
      (Asm.fresh (some .zero)) = .err e := by
  refine (readme_first (i := 4) (w' := { Tag.zero with message := m }) _ rfl rfl rfl).trans ?_
  refine (readme_next (i := 0) (w' := { Tag.zero with message := m, object := o }) _ (by decide) rfl rfl (by decide) rfl).trans ?_
  refine (readme_next (i := 2) (w' := { Tag.zero with message := m, object := o, tag := t }) _ (by decide) rfl rfl (by decide) rfl).trans ?_
  refine readme_bad (i := 3) _ (by decide) rfl rfl (by decide) ?_
  show (personStruct.child (some _) p >>= _) = _
  rw [hp]
  rfl

theorem readme_child {W : Type} (S : Struct W) (w : W) (es : List (Bytes × Node)) (hs : S.self (.map es) = none) :
    S.child (some w) (.map es) = (S.assignEntries es (Asm.fresh (some w)) >>= fun a => a.build) := by
  simp only [Struct.child, Struct.assignNode, Node.isNull, hs]
  rfl

theorem readme_tag_built (m : Bytes) (o : Link) (t d e n y : Bytes) : buildTag (readmeTag m o t d e n y) = .err .missingField := by
  have hp : ∀ w, personStruct.child (some w) (.map [(b!"date", .str d), (b!"email", .str e), (b!"name", .str n)]) = .err .missingField := by
    intro w
    rw [readme_child _ _ _ rfl, readme_tagger]
    rfl
  unfold buildTag Struct.buildFrom readmeTag
  rw [readme_child _ _ _ rfl, readme_tag m o t _ y _ hp]
  rfl

/-- A tag as the README shows it is taken for a commit and refused. Its own builder
refuses it for the missing time zone. -/
theorem readme_tag_fails (m : Bytes) (o : Link) (t d e n y : Bytes) :
    encodeBytes (readmeTag m o t d e n y) = .err .invalidKey ∧
    ∀ cs, Feeds (readmeTag m o t d e n y) cs → buildBy .tag cs = .err .missingField := by
  refine ⟨rfl, fun cs h => ?_⟩
  rw [calls_match_assign (fun _ => 0) .tag (by decide) h]
  show ((buildTag (readmeTag m o t d e n y) >>= fun t => Res.ok (Own.tag t)) >>= fun v => Res.ok (valOf v)) = _
  rw [readme_tag_built]
  rfl

theorem valueAt_of {es : List (Bytes × Node)} {k : Bytes} {v : Node} (hd : (es.map Prod.fst).Nodup) (h : (k, v) ∈ es) :
    valueAt es k = some v := by
  induction es with
  | nil => cases h
  | cons e r ih =>
    simp only [List.map_cons, List.nodup_cons] at hd
    rcases List.mem_cons.1 h with h | h
    · subst h; simp [valueAt]
    · have : e.1 ≠ k := fun hk => hd.1 (hk ▸ List.mem_map_of_mem (f := Prod.fst) h)
      have := ih hd.2 h
      unfold valueAt at this ⊢
      rw [List.find?_cons_of_neg (by simpa using ‹e.1 ≠ k›)]
      exact this

/-- Whatever values and order the keys have: with a tagger as in the README the tag is
neither written nor built. -/
theorem tag_form_refused {es ts : List (Bytes × Node)} (hk : (es.map Prod.fst).Perm tagForm)
    (ht : (b!"tagger", Node.map ts) ∈ es) (hts : (ts.map Prod.fst).Perm taggerForm) :
    (∀ out, encodeBytes (.map es) ≠ .ok out) ∧
    ∀ cs, Feeds (.map es) cs → ∃ e, buildBy .tag cs = .err e := by
  have hp : ∀ p, ¬ PersonNode (.map ts) p := by
    rintro p ⟨es', h, hks, -⟩
    cases h
    have := hks.2.2 b!"timezone" (by decide)
    rw [hts.mem_iff] at this
    exact absurd this (by decide)
  have hnd : (es.map Prod.fst).Nodup := hk.nodup_iff.2 (by decide)
  have hno : ∀ t, ¬ TagNode (.map es) t := by
    rintro t ⟨es', h, -, -, -, -, h4, -⟩
    cases h
    exact hp _ (h4 _ ht)
  refine ⟨fun out h => ?_, fun cs hf => ?_⟩
  · cases es with
    | nil => cases ht
    | cons x r =>
      obtain ⟨k, v⟩ := x
      by_cases hm : k ∈ tagKeys
      · obtain ⟨body, hb, -⟩ := (encode_foreign_tag_exact rfl hm out).1 h
        obtain ⟨o, ty, tg, me, l, typ, tag, msg, hh, tl, -, -, -, -, -, -, -, -, -, htl, -⟩ := hb
        rw [valueAt_of hnd ht] at htl
        rcases htl with ⟨h1, -⟩ | ⟨-, p, h1, -⟩
        · cases h1
        · exact hp p h1
      · obtain ⟨o, ho, -⟩ := Res.bind_eq_ok.1 h
        rcases encode_foreign (n := .map ((k, v) :: r)) (fun o => ⟨nofun, nofun⟩) ho with ⟨h1, -⟩ | ⟨k', v', r', h1, h2⟩
        · cases h1
        · cases h1
          rcases h2 with ⟨h2, -⟩ | ⟨-, -, c, hc, -⟩
          · exact hm h2
          · obtain ⟨es', h, hks, -⟩ := hc
            cases h
            have := hks.2.2 b!"mergetag" (by decide)
            rw [hk.mem_iff] at this
            exact absurd this (by decide)
  · cases hb : buildBy .tag cs with
    | ok v =>
      obtain ⟨t, hc, -⟩ := (calls_build_tag hf v).1 hb
      exact absurd hc (hno t)
    | err e => exact ⟨e, rfl⟩
    | panic => exact absurd hb (calls_never_panic _ hf)

/-- A tree as the README shows it is never written by Encode, whatever the names are. -/
theorem readme_tree_fails (rows : List (Bytes × Bytes × Link)) : ∃ e, encodeBytes (readmeTree rows) = .err e := by
  cases rows with
  | nil => exact ⟨.iterOver, rfl⟩
  | cons r rows =>
    obtain ⟨k, m, l⟩ := r
    have hv : ∀ k' v, firstAt ((k, readmeEntry m l) :: rows.map fun r => (r.1, readmeEntry r.2.1 r.2.2)) k' = some v → v.kind = .map := by
      intro k' v h
      obtain ⟨x, hx, rfl⟩ := Option.map_eq_some_iff.1 h
      have hx := List.mem_of_find?_eq_some hx
      rcases List.mem_cons.1 hx with rfl | hx
      · rfl
      · obtain ⟨r, -, rfl⟩ := List.mem_map.1 hx
        rfl
    by_cases hk : k ∈ tagKeys
    · have : ∃ e, tagFault ((k, readmeEntry m l) :: rows.map fun r => (r.1, readmeEntry r.2.1 r.2.2)) = some e := by
        unfold tagFault entryFault
        split
        · exact ⟨_, rfl⟩
        · rename_i v h
          rw [hv _ v h]
          exact ⟨_, rfl⟩
      obtain ⟨e, he⟩ := this
      exact ⟨e, (tag_map_fails hk e).2 (Or.inl he)⟩
    · have hb : ∃ e, buildCommit (.map ((k, readmeEntry m l) :: rows.map fun r => (r.1, readmeEntry r.2.1 r.2.2))) = .err e := by
        generalize (rows.map fun r => (r.1, readmeEntry r.2.1 r.2.2)) = es
        by_cases hf : k ∈ commitStruct.fields.map Field.name
        · simp only [commitStruct, List.map_cons, List.map_nil, List.mem_cons, List.not_mem_nil, or_false] at hf
          rcases hf with rfl | rfl | rfl | rfl | rfl | rfl | rfl | rfl | rfl
          all_goals first
            | exact ⟨.wrongKind, rfl⟩
            | exact ⟨.invalidKey, rfl⟩
        · refine ⟨.invalidKey, ?_⟩
          have : commitStruct.find k = none := by
            unfold Struct.find
            rw [List.findIdx?_eq_none_iff]
            intro f hm
            simp only [decide_eq_false_iff_not]
            rintro rfl
            exact hf (List.mem_map_of_mem hm)
          show (commitStruct.assignEntries _ (Asm.fresh (some .zero)) >>= fun a => a.build) = _
          simp only [Struct.assignEntries, Struct.assembleKey, Struct.ready, Asm.fresh, Res.bind_ok, Struct.keyAssignNode, Node.asString,
            Struct.keyAssignString, this, ne_eq, not_true_eq_false, if_false, Res.bind_err]
      obtain ⟨e, he⟩ := hb
      refine ⟨e, ?_⟩
      show encodeBytes (.map ((k, readmeEntry m l) :: rows.map fun r => (r.1, readmeEntry r.2.1 r.2.2))) = _
      rw [map_first, if_neg hk]
      show ((buildCommit _ >>= fun c => commitBody c >>= fun b => Res.ok (Out.framed b!"commit" b)) >>= fun o => Res.ok o.bytes) = _
      rw [he]
      rfl

/-- But a tree builder given it call by call builds this tree, and that is written if
all the links are CIDs long enough. -/
theorem readme_tree_builds (pol : TreeAsm → Nat) (hint : Int) (rows : List (Bytes × Bytes × Link))
    (hd : (rows.map Prod.fst).Nodup) {cs : List (Nat × Call)} (h : Feeds (readmeTree rows) cs) :
    ∃ t, buildTreeBy pol hint cs = .ok t ∧ t.t = (rows.map fun r => (r.1, ⟨r.2.1, r.2.2⟩)) ∧
      ((∃ out, encodeBytes (.own (.tree t)) = .ok out) ↔ ∀ r ∈ rows, ∃ c, r.2.2 = .cid c ∧ 20 ≤ c.hash.length) := by
  obtain ⟨t, h1, h2, -⟩ := (calls_tree_distinct pol hint h (by rw [List.map_map]; exact hd)
    (rows.map fun r => (r.1, ⟨r.2.1, r.2.2⟩))).1.2 ⟨by simp [Function.comp_def], by
      rw [List.map_map, List.map_map]
      clear h hd
      induction rows with
      | nil => trivial
      | cons r rows ih =>
        refine ⟨?_, ih⟩
        exact (build_treeEntry _ _).1 (by with_unfolding_all rfl)⟩
  refine ⟨t, h1, h2, ?_⟩
  obtain ⟨v1, v2⟩ := value_outcome (.tree t)
  have hu : ObjUnwritable (.tree t) ↔ ∃ r ∈ rows, ∀ c, r.2.2 = .cid c → c.hash.length < 20 := by
    show (∃ r ∈ t.t, _) ↔ _
    rw [h2]
    constructor
    · rintro ⟨x, hx, hc⟩
      obtain ⟨r, hr, rfl⟩ := List.mem_map.1 hx
      exact ⟨r, hr, hc⟩
    · rintro ⟨r, hr, hc⟩
      exact ⟨_, List.mem_map_of_mem hr, hc⟩
  have hw : (∃ out, encodeBytes (.own (.tree t)) = .ok out) ↔ ¬ ObjUnwritable (.tree t) := by
    rw [← v2]
    show _ ↔ ¬ encodeBytes (.own (.tree t)) = .panic
    cases h : encodeBytes (.own (.tree t)) with
    | ok out => simp
    | err e => exact absurd h (v1 e)
    | panic => simp
  rw [hw, hu]
  constructor
  · intro h r hr
    cases hl : r.2.2 with
    | cid c =>
      refine ⟨c, rfl, Nat.not_lt.1 fun hlt => h ⟨r, hr, fun c' hc => ?_⟩⟩
      rw [hl] at hc
      cases hc
      exact hlt
    | nil => exact absurd ⟨r, hr, fun c hc => by rw [hl] at hc; cases hc⟩ h
    | other n => exact absurd ⟨r, hr, fun c hc => by rw [hl] at hc; cases hc⟩ h
  · rintro h ⟨r, hr, hc⟩
    obtain ⟨c, h1, h2⟩ := h r hr
    exact absurd (hc c h1) (Nat.not_lt.2 h2)

/-- Bytes are written as they are; those that the README shows are read as this blob. -/
theorem readme_blob (b : Bytes) (e : Err) (N : Nat) : encodeBytes (.bytes b) = .ok b ∧
    (parseObject (σ := Stream) ⟨b, e, N⟩ = .ok (.blob b) ↔ ∃ content, content.length < 2 ^ 63 ∧ Framed b!"blob" content b) :=
  ⟨rfl, blob_survives b e N⟩

/-- In neither view has a commit the keys of the README, or a tagger those of the tagger. -/
theorem never_shown (repr : Bool) (c : Commit) (p : PersonInfo) (es : List (Bytes × Node)) :
    ((if repr then (Own.commit c).representation else .own (.commit c)).mapIterator = some es → ¬ (es.map Prod.fst).Perm commitForm) ∧
    ((if repr then (Own.person p).representation else .own (.person p)).mapIterator = some es → ¬ (es.map Prod.fst).Perm taggerForm) := by
  constructor
  · intro h hp
    have hm : b!"mergetag" ∈ es.map Prod.fst := by
      cases repr <;> cases h <;> simp [Own.reprEntries, Own.entries]
    rw [hp.mem_iff] at hm
    exact absurd hm (by decide)
  · intro h hp
    have hm : b!"timezone" ∈ es.map Prod.fst := by
      cases repr <;> cases h <;> simp [Own.reprEntries, Own.entries]
    rw [hp.mem_iff] at hm
    exact absurd hm (by decide)

/-! Cases. -/

/-- The commit of the README, in another order. -/
example : ([(b!"tree", .link (.other 1)), (b!"parents", .list []), (b!"message", .str b!"m"),
    (b!"committer", readmePerson b!"1503667703" b!"+0200" b!"author@mail" b!"Author Name"), (b!"author", .null)].map Prod.fst :
      List Bytes).Perm commitForm := by decide

/-- With the two fields it lacks a commit is built from the calls, though Encode panics. -/
example : ∃ c, CommitNode (.map [(b!"author", readmePerson b!"1" b!"+0200" b!"e" b!"n"), (b!"message", .str b!"m"),
    (b!"parents", .list []), (b!"tree", .link (.other 1)), (b!"mergetag", .list []), (b!"other", .list [])]) c :=
  ⟨⟨.other 1, [], b!"m", some ⟨b!"n", b!"e", b!"1", b!"+0200"⟩, none, none, none, [], []⟩, _, rfl, by
    refine ⟨⟨by decide, by decide, by decide⟩, ?_⟩
    simp [At, OptAt, LinkNode, StrNode, ListNode, Node.kind, Node.asLink, Node.asString, Node.listIterator, Each, PersonNode,
      readmePerson, Node.mapIterator, KeysOk]
    rintro k x (⟨rfl, -⟩ | ⟨rfl, -⟩ | ⟨rfl, -⟩ | ⟨rfl, -⟩) <;> decide⟩

/-- The tag of the README with a time zone, and not the message first, is written. -/
example (o : Link) (m : Bytes) : encodeBytes (.map [(b!"object", .link o), (b!"tag", .str b!"tagname"),
    (b!"tagger", readmePerson b!"1503667703" b!"+0200" b!"author@mail" b!"Author Name"), (b!"type", .str b!"commit"),
    (b!"message", .str m)]) = encTag ⟨o, b!"commit", b!"tagname", ⟨b!"Author Name", b!"author@mail", b!"1503667703", b!"+0200"⟩, m⟩ :=
  encode_foreign_tag ⟨_, rfl, ⟨by simp, by simp, by simp⟩, by
    simp [At, LinkNode, StrNode, Node.kind, Node.asLink, Node.asString, PersonNode, readmePerson, Node.mapIterator, KeysOk]
    rintro k x (⟨rfl, -⟩ | ⟨rfl, -⟩ | ⟨rfl, -⟩ | ⟨rfl, -⟩) <;> decide⟩ rfl
    (by decide)

/-- A tree with the names of fields. -/
example : encodeBytes (readmeTree [(b!"author", b!"100644", .other 1)]) = .err .invalidKey ∧
    encodeBytes (readmeTree [(b!"tree", b!"100644", .other 1)]) = .err .wrongKind ∧
    encodeBytes (readmeTree [(b!"tag", b!"100644", .other 1)]) = .err .notExists := ⟨rfl, rfl, rfl⟩

/-- There are calls that give the tree. -/
example : ∃ cs, Feeds (readmeTree [(b!"file.name", b!"100644", .other 1)]) cs :=
  ⟨_, .map (.cons .entry (.map (.cons .entry (.str _) (.cons .entry (.link _) .nil))) .nil)⟩

end Verif.Props
