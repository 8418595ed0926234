import Verif.Proofs.FeedTypes
import Verif.Props.Build
import Verif.Props.Gen

/-!
# Data given call by call: C69, C70
-/

namespace Verif.Props

open Verif Spec Calls

theorem inPlace_names : (commitInPlace.fields.map Field.name).Nodup := by decide

theorem assignInPlace_ok {n : Node} {x : Option PersonInfo} :
    assignOnce none (personStruct.child (some .zero) n) = .ok x ↔ ∃ p, PersonNode n p ∧ x = some p := by
  rw [assignOnce_ok]
  constructor
  · rintro ⟨p, h, rfl⟩
    exact ⟨p, (person_child_iff _ _ _).1 h, rfl⟩
  · rintro ⟨p, h, rfl⟩
    exact ⟨p, (person_child_iff _ _ _).2 h, rfl⟩

theorem inPlace_respects : commitInPlace.Respects commitP := by
  intro f hf w n w' h0 h
  obtain ⟨z1, z2, z3, z4, z5, z6, z7, z8, z9⟩ := h0
  have keep : ∀ {w' : Commit} {k m},
      (k = b!"tree" → w'.tree = w.tree) → (k = b!"parents" → w'.parents = w.parents) →
      (k = b!"message" → w'.message = w.message) → (k = b!"author" → w'.author = w.author) →
      (k = b!"committer" → w'.committer = w.committer) →
      (k = b!"encoding" → w'.encoding = w.encoding) →
      (k = b!"signature" → w'.signature = w.signature) →
      (k = b!"mergetag" → w'.mergetag = w.mergetag) → (k = b!"other" → w'.other = w.other) →
      commitP k m w → commitP k m w' := by
    intro w' k m e1 e2 e3 e4 e5 e6 e7 e8 e9 ⟨q1, q2, q3, q4, q5, q6, q7, q8, q9⟩
    exact ⟨fun hk => e1 hk ▸ q1 hk, fun hk => e2 hk ▸ q2 hk, fun hk => e3 hk ▸ q3 hk,
      fun hk => e4 hk ▸ q4 hk, fun hk => e5 hk ▸ q5 hk, fun hk => e6 hk ▸ q6 hk,
      fun hk => e7 hk ▸ q7 hk, fun hk => e8 hk ▸ q8 hk, fun hk => e9 hk ▸ q9 hk⟩
  simp only [commitInPlace, List.mem_cons, List.not_mem_nil, or_false] at hf
  rcases hf with rfl | rfl | rfl | rfl | rfl | rfl | rfl | rfl | rfl <;>
  · obtain ⟨b, h1, h2⟩ := Res.bind_eq_ok.1 h
    cases h2
    refine ⟨?_, ?_⟩
    · refine ⟨?_, ?_, ?_, ?_, ?_, ?_, ?_, ?_, ?_⟩ <;> intro hk <;>
        first
        | exact absurd hk (by decide)
        | (intro v hv; cases hv; exact assignTreeLink_ok.1 h1)
        | (intro v hv; cases hv; exact assignString_ok.1 h1)
        | (rw [show w.parents = [] from z2 rfl] at h1; exact (assignLinkList_ok _ _).1 h1)
        | (rw [show w.mergetag = [] from z8 rfl] at h1; exact (assignTagList_ok _ _).1 h1)
        | (rw [show w.other = [] from z9 rfl] at h1; exact (assignStringList_ok _ _).1 h1)
        | (rw [show w.author = none from z4 rfl] at h1
           exact Or.inr (assignInPlace_ok.1 h1))
        | (rw [show w.committer = none from z5 rfl] at h1
           exact Or.inr (assignInPlace_ok.1 h1))
        | (rw [show w.encoding = none from z6 rfl] at h1
           exact Or.inr (assignOptString_ok.1 h1))
        | (rw [show w.signature = none from z7 rfl] at h1
           exact Or.inr (assignOptGpgSig_ok.1 h1))
    · intro k m hk hp
      refine keep ?_ ?_ ?_ ?_ ?_ ?_ ?_ ?_ ?_ hp <;> intro hk' <;>
        first | rfl | exact absurd hk' hk

theorem inPlace_required :
    (commitInPlace.fields.filter Field.required).map Field.name =
      [b!"tree", b!"parents", b!"message", b!"mergetag", b!"other"] := rfl

theorem inPlace_self {n : Node} {c : Commit} (h : commitInPlace.self n = some c) : n = .own (.commit c) :=
  commit_self h

theorem denotes_same {W : Type} {S S' : Struct W} {P : Bytes → Option Node → W → Prop} {n : Node} {w : W}
    (hs : S.fields.map (fun f => (f.name, f.required)) = S'.fields.map (fun f => (f.name, f.required)))
    (h : S.Denotes P n w) : S'.Denotes P n w := by
  have hn : S.fields.map Field.name = S'.fields.map Field.name := by
    have := congrArg (List.map Prod.fst) hs
    simpa [List.map_map, Function.comp_def] using this
  have hm : ∀ f ∈ S'.fields, ∃ g ∈ S.fields, g.name = f.name ∧ g.required = f.required := by
    intro f hf
    have : (f.name, f.required) ∈ S'.fields.map (fun f => (f.name, f.required)) := List.mem_map_of_mem hf
    rw [← hs] at this
    obtain ⟨g, hg, he⟩ := List.mem_map.1 this
    simp only [Prod.mk.injEq] at he
    exact ⟨g, hg, he.1, he.2⟩
  obtain ⟨es, h1, h2, h3, h4, h5, h6⟩ := h
  refine ⟨es, h1, h2, hn ▸ h3, ?_, h5, ?_⟩
  · intro f hf hr
    obtain ⟨g, hg, e1, e2⟩ := hm f hf
    rw [← e1]; exact h4 g hg (e2.trans hr)
  · intro f hf hr
    obtain ⟨g, hg, e1, e2⟩ := hm f hf
    rw [← e1]; exact h6 g hg (e1 ▸ hr)

theorem inPlace_sound {n : Node} {c : Commit} (h : commitInPlace.child (some .zero) n = .ok c) : CommitNode n c := by
  have := commitInPlace.child_denotes inPlace_names commitP inPlace_respects
    (fun n v hv => by rw [inPlace_self hv]; exact denotes_same (S := commitStruct) rfl (commit_own v)) (fun _ _ => commitP_zero _) h
  exact commitNode_of_denotes (denotes_same (S := commitInPlace) rfl this)

theorem inPlace_iff {n : Node} (hx : ∀ es, n.mapIterator = some es → ∀ k v, (k, v) ∈ es → v ≠ .absent)
    (c : Commit) : commitInPlace.child (some .zero) n = .ok c ↔ CommitNode n c := by
  constructor
  · exact inPlace_sound
  · intro hc
    have hc0 := hc
    obtain ⟨es, hes, ⟨k1, k2, k3⟩, a1, a2, a3, a4, a5, a6, a7, a8, a9⟩ := hc
    have x1 := hx es hes
    obtain ⟨c', hc'⟩ := commitInPlace.child_exists inPlace_names commitP inPlace_respects
      (w := Commit.zero) (fun _ _ => commitP_zero _) hes k1
      (by
        intro k hk
        have := k2 k hk
        simp only [List.mem_cons, List.not_mem_nil, or_false] at this
        rcases this with (rfl | rfl | rfl | rfl | rfl) | rfl | rfl | rfl | rfl <;> decide)
      (by
        intro f hf hr
        refine k3 f.name ?_
        rw [← inPlace_required]
        exact List.mem_map_of_mem (List.mem_filter.2 ⟨hf, hr⟩))
      (by
        intro f hf v hv w hw
        obtain ⟨z1, z2, z3, z4, z5, z6, z7, z8, z9⟩ := hw
        have hne := x1 _ v hv
        simp only [commitInPlace, List.mem_cons, List.not_mem_nil, or_false] at hf
        rcases hf with rfl | rfl | rfl | rfl | rfl | rfl | rfl | rfl | rfl
        · exact ⟨_, by dsimp only; rw [assignTreeLink_ok.2 (a1 v hv)]; rfl⟩
        · exact ⟨_, by
            dsimp only
            rw [show w.parents = [] from z2 rfl, (assignLinkList_ok _ _).2 (a2 v hv)]; rfl⟩
        · exact ⟨_, by dsimp only; rw [assignString_ok.2 (a3 v hv)]; rfl⟩
        · rcases a4.2 v hv with ⟨h, -⟩ | ⟨b, hb, -⟩
          · exact absurd h hne
          · exact ⟨_, by
              dsimp only
              rw [show w.author = none from z4 rfl, assignInPlace_ok.2 ⟨b, hb, rfl⟩]; rfl⟩
        · rcases a5.2 v hv with ⟨h, -⟩ | ⟨b, hb, -⟩
          · exact absurd h hne
          · exact ⟨_, by
              dsimp only
              rw [show w.committer = none from z5 rfl, assignInPlace_ok.2 ⟨b, hb, rfl⟩]; rfl⟩
        · rcases a6.2 v hv with ⟨h, -⟩ | ⟨b, hb, -⟩
          · exact absurd h hne
          · exact ⟨_, by
              dsimp only
              rw [show w.encoding = none from z6 rfl, assignOptString_ok.2 ⟨b, hb, rfl⟩]; rfl⟩
        · rcases a7.2 v hv with ⟨h, -⟩ | ⟨b, hb, -⟩
          · exact absurd h hne
          · exact ⟨_, by
              dsimp only
              rw [show w.signature = none from z7 rfl, assignOptGpgSig_ok.2 ⟨b, hb, rfl⟩]; rfl⟩
        · exact ⟨_, by
            dsimp only
            rw [show w.mergetag = [] from z8 rfl, (assignTagList_ok _ _).2 (a8 v hv)]; rfl⟩
        · exact ⟨_, by
            dsimp only
            rw [show w.other = [] from z9 rfl, (assignStringList_ok _ _).2 (a9 v hv)]; rfl⟩)
    have := commitNode_unique hc0 (inPlace_sound hc')
    rw [this]
    exact hc'

/-! ## From runs of calls to results -/

theorem feeds_plain {n : Node} {cs : List (Nat × Call)} (h : Feeds n cs) : ∀ v, n ≠ .own v := by
  intro v e
  subst e
  cases h

theorem feedsMap_plain {es : List (Bytes × Node)} {cs : List (Nat × Call)} (h : FeedsMap es cs) :
    ∀ k v, (k, v) ∈ es → ∃ c, Feeds v c := by
  induction es generalizing cs with
  | nil => intro k v hv; cases hv
  | cons e es ih =>
    cases h with
    | cons hn hf hr =>
      intro k v hv
      rcases List.mem_cons.1 hv with h | h
      · cases h; exact ⟨_, hf⟩
      · exact ih hr k v h

theorem feeds_entries {n : Node} {cs : List (Nat × Call)} (h : Feeds n cs) {es : List (Bytes × Node)}
    (he : n.mapIterator = some es) : ∀ k v, (k, v) ∈ es → ∃ c, Feeds v c := by
  cases h with
  | map hm => cases he; exact feedsMap_plain hm
  | _ => cases he

theorem feeds_absent {cs : List (Nat × Call)} (h : Feeds .absent cs) : False := by cases h

theorem agree_build {α : Type} {p : Prop} {t : T} {g : Node → Res α} {val : α → Val} (h : Agree p t g val)
    {n : Node} {cs : List (Nat × Call)} (hn : Feeds n cs) :
    (g n = .panic ∧ p) ∨ buildBy t cs = (g n >>= fun a => .ok (val a)) := by
  have := h n cs hn
  unfold Matches at this
  unfold buildBy
  split at this
  · rename_i a ha
    obtain ⟨ch, h1, h2, h3⟩ := this
    right
    rw [ha, h1, Res.bind_ok, Res.bind_ok, Frame.build, if_pos h2, h3]
  · rename_i e he
    right
    rw [he, this, Res.bind_err, Res.bind_err]
  · rename_i hp
    exact Or.inl ⟨hp, this⟩

theorem agree_same {α : Type} {t : T} {g : Node → Res α} {val : α → Val} (h : Agree False t g val)
    {n : Node} {cs : List (Nat × Call)} (hn : Feeds n cs) :
    buildBy t cs = (g n >>= fun a => .ok (val a)) ∧ g n ≠ .panic := by
  refine ⟨?_, fun hp => ?_⟩
  · rcases agree_build h hn with h | h
    · exact h.2.elim
    · exact h
  · have := h n cs hn
    rw [hp] at this
    exact this

theorem bind_map {α : Type} (r : Res α) (f : α → Own) (g : α → Val) (h : ∀ a, valOf (f a) = g a) :
    (r >>= fun a => .ok (g a)) = ((r >>= fun a => .ok (f a)) >>= fun v => .ok (valOf v)) := by
  cases r with
  | ok a => simp only [Res.bind_ok, h]
  | err e => rfl
  | panic => rfl

/-- Data given call by call to a fresh builder has the outcome that `AssignNode` has:
the same value built, or the same error; every type but commits. -/
theorem calls_match_assign (pol : TreeAsm → Nat) (t : T) (ht : t ≠ .commit) {n : Node} {cs : List (Nat × Call)}
    (h : Feeds n cs) : buildBy t cs = ((protoOf t).assignNode pol n >>= fun v => .ok (valOf v)) := by
  cases t with
  | string => rw [(agree_same (agree_string False) h).1]; exact bind_map _ Own.string _ fun _ => rfl
  | gpgSig => rw [(agree_same (agree_gpgSig False) h).1]; exact bind_map _ Own.gpgSig _ fun _ => rfl
  | link => rw [(agree_same (agree_lnk False) h).1]; exact bind_map _ Own.link _ fun _ => rfl
  | treeLink => rw [(agree_same (agree_treeLink False) h).1]; exact bind_map _ Own.treeLink _ fun _ => rfl
  | commitLink => rw [(agree_same (agree_commitLink False) h).1]; exact bind_map _ Own.commitLink _ fun _ => rfl
  | linkList => rw [(agree_same (agree_linkList False) h).1]; exact bind_map _ Own.linkList _ fun _ => rfl
  | stringList => rw [(agree_same (agree_stringList False) h).1]; exact bind_map _ Own.stringList _ fun _ => rfl
  | tagList => rw [(agree_same (agree_tagList False) h).1]; exact bind_map _ Own.tagList _ fun _ => rfl
  | person => rw [(agree_same (agree_person False) h).1]; exact bind_map _ Own.person _ fun _ => rfl
  | treeEntry => rw [(agree_same (agree_treeEntry False) h).1]; exact bind_map _ Own.treeEntry _ fun _ => rfl
  | tag => rw [(agree_same (agree_tag False) h).1]; exact bind_map _ Own.tag _ fun _ => rfl
  | commit => exact absurd rfl ht

/-- For commits the same, unless `AssignNode` panics. -/
theorem calls_match_assign_commit (pol : TreeAsm → Nat) {n : Node} {cs : List (Nat × Call)} (h : Feeds n cs)
    (hp : Proto.commit.assignNode pol n ≠ .panic) :
    buildBy .commit cs = (Proto.commit.assignNode pol n >>= fun v => .ok (valOf v)) := by
  rcases agree_build agree_commit h with ⟨h, -⟩ | h
  · refine absurd ?_ hp
    show (buildCommit n >>= fun c => Res.ok (Own.commit c)) = .panic
    rw [show buildCommit n = .panic from h]
    rfl
  · rw [h]
    exact bind_map _ Own.commit _ fun _ => rfl

/-- Given call by call, no data makes a builder panic, whatever its type. -/
theorem calls_never_panic (t : T) {n : Node} {cs : List (Nat × Call)} (h : Feeds n cs) :
    buildBy t cs ≠ .panic := by
  have key : ∀ {α : Type} {g : Node → Res α} {val : α → Val}, Agree False t g val → buildBy t cs ≠ .panic := by
    intro α g val ha
    obtain ⟨h1, h2⟩ := agree_same ha h
    rw [h1]
    cases hg : g n with
    | ok a => intro h; cases h
    | err e => intro h; cases h
    | panic => exact absurd hg h2
  cases t with
  | string => exact key (agree_string False)
  | gpgSig => exact key (agree_gpgSig False)
  | link => exact key (agree_lnk False)
  | treeLink => exact key (agree_treeLink False)
  | commitLink => exact key (agree_commitLink False)
  | linkList => exact key (agree_linkList False)
  | stringList => exact key (agree_stringList False)
  | tagList => exact key (agree_tagList False)
  | person => exact key (agree_person False)
  | treeEntry => exact key (agree_treeEntry False)
  | tag => exact key (agree_tag False)
  | commit => exact key (agree_commitInPlace False)

theorem same_iff {α : Type} {t : T} {g : Node → Res α} {val : α → Val} (ha : Agree False t g val) {R : Node → α → Prop}
    {n : Node} {cs : List (Nat × Call)} (h : Feeds n cs) (hR : ∀ a, g n = .ok a ↔ R n a) (v : Val) :
    buildBy t cs = .ok v ↔ ∃ a, R n a ∧ v = val a := by
  rw [(agree_same ha h).1]
  constructor
  · intro h
    obtain ⟨a, h1, h2⟩ := Res.bind_eq_ok.1 h
    cases h2
    exact ⟨a, (hR a).1 h1, rfl⟩
  · rintro ⟨a, h1, rfl⟩
    rw [(hR a).2 h1]
    rfl

/-- A commit is built from the calls exactly when the data is that of a commit, and it
is that commit; the author and committer maps on which `AssignNode` panics included. -/
theorem calls_build_commit {n : Node} {cs : List (Nat × Call)} (h : Feeds n cs) (v : Val) :
    buildBy .commit cs = .ok v ↔ ∃ c, CommitNode n c ∧ v = commitVal c := by
  refine same_iff (agree_commitInPlace False) h (fun c => inPlace_iff ?_ c) v
  rintro es he k v hv rfl
  obtain ⟨c, hc⟩ := feeds_entries h he k _ hv
  exact feeds_absent hc

theorem calls_build_tag {n : Node} {cs : List (Nat × Call)} (h : Feeds n cs) (v : Val) :
    buildBy .tag cs = .ok v ↔ ∃ t, TagNode n t ∧ v = tagVal t :=
  same_iff (agree_tag False) h (build_tag n) v

theorem calls_build_person {n : Node} {cs : List (Nat × Call)} (h : Feeds n cs) (v : Val) :
    buildBy .person cs = .ok v ↔ ∃ p, PersonNode n p ∧ v = personVal p :=
  same_iff (agree_person False) h (build_person n) v

theorem calls_build_treeEntry {n : Node} {cs : List (Nat × Call)} (h : Feeds n cs) (v : Val) :
    buildBy .treeEntry cs = .ok v ↔ ∃ e, TreeEntryNode n e ∧ v = treeEntryVal e :=
  same_iff (agree_treeEntry False) h (build_treeEntry n) v

/-- On the data of a commit with an author or committer `AssignNode` panics, though
the calls build the commit. -/
theorem assign_commit_panics (pol : TreeAsm → Nat) {n : Node} {cs : List (Nat × Call)} (h : Feeds n cs) {c : Commit}
    (hc : CommitNode n c) (ha : c.author ≠ none ∨ c.committer ≠ none) :
    Proto.commit.assignNode pol n = .panic ∧ buildBy .commit cs = .ok (commitVal c) := by
  have hb : buildBy .commit cs = .ok (commitVal c) := (calls_build_commit h _).2 ⟨c, hc, rfl⟩
  refine ⟨?_, hb⟩
  show (buildCommit n >>= fun c => Res.ok (Own.commit c)) = .panic
  rcases agree_build agree_commit h with ⟨h', -⟩ | h'
  · rw [show buildCommit n = .panic from h']; rfl
  · exfalso
    rw [h'] at hb
    obtain ⟨c', h1, -⟩ := Res.bind_eq_ok.1 hb
    obtain ⟨-, hx⟩ := (build_commit_iff (fun c => feeds_plain h _) c').1 h1
    obtain ⟨es, hes, hk, h1, h2, h3, h4, h5, -⟩ := hc
    obtain ⟨-, x1, x2⟩ := hx es hes
    have bad : ∀ k, At es k (∃ p, · = .own (.person p)) → k ∉ es.map Prod.fst := by
      intro k hat hmem
      obtain ⟨v, hv⟩ := exists_entry hmem
      obtain ⟨p, rfl⟩ := hat v hv
      obtain ⟨c, hc⟩ := feeds_entries h hes k _ hv
      exact feeds_plain hc _ rfl
    rcases ha with ha | ha
    · exact ha (h4.1 (bad _ x1))
    · exact ha (h5.1 (bad _ x2))

/-! ## The package's own data given back -/

theorem nodes_map {α : Type} (f : α → Data) (l : List α) : Data.nodes (l.map f) = l.map fun a => (f a).node := by
  induction l with
  | nil => rfl
  | cons a l ih => simp only [List.map_cons, Data.nodes, ih]

theorem entries_append (a b : List (Bytes × Data)) : Data.entries (a ++ b) = Data.entries a ++ Data.entries b := by
  induction a with
  | nil => rfl
  | cons e a ih => simp only [List.cons_append, Data.entries, ih]

theorem strNode_str (b : Bytes) : StrNode (.str b) b := ⟨rfl, rfl⟩
theorem linkNode_link (l : Link) : LinkNode (.link l) l := ⟨rfl, rfl⟩

theorem person_data (p : PersonInfo) : PersonNode (personData p).node p := by
  refine ⟨_, rfl, ⟨person_names, fun _ hk => Or.inl hk, fun _ hk => hk⟩, ?_, ?_, ?_, ?_⟩ <;>
  · intro v hv
    simp only [Data.entries, Data.node, List.mem_cons, List.not_mem_nil, or_false, Prod.mk.injEq] at hv
    rcases hv with ⟨hk, rfl⟩ | ⟨hk, rfl⟩ | ⟨hk, rfl⟩ | ⟨hk, rfl⟩ <;>
      first
      | exact absurd hk (by decide)
      | exact strNode_str _
      | exact linkNode_link _

theorem treeEntry_data (e : TreeEntry) : TreeEntryNode (entryData e).node e := by
  refine ⟨_, rfl, ⟨treeEntry_names, fun _ hk => Or.inl hk, fun _ hk => hk⟩, ?_, ?_⟩ <;>
  · intro v hv
    simp only [Data.entries, Data.node, List.mem_cons, List.not_mem_nil, or_false, Prod.mk.injEq] at hv
    rcases hv with ⟨hk, rfl⟩ | ⟨hk, rfl⟩ <;>
      first
      | exact absurd hk (by decide)
      | exact strNode_str _
      | exact linkNode_link _

theorem tag_data (t : Tag) : TagNode (tagData t).node t := by
  refine ⟨_, rfl, ⟨tag_names, fun _ hk => Or.inl hk, fun _ hk => hk⟩, ?_, ?_, ?_, ?_, ?_⟩ <;>
  · intro v hv
    simp only [Data.entries, Data.node, List.mem_cons, List.not_mem_nil, or_false, Prod.mk.injEq] at hv
    rcases hv with ⟨hk, rfl⟩ | ⟨hk, rfl⟩ | ⟨hk, rfl⟩ | ⟨hk, rfl⟩ | ⟨hk, rfl⟩ <;>
      first
      | exact absurd hk (by decide)
      | exact strNode_str _
      | exact linkNode_link _
      | exact person_data _

theorem list_data {α : Type} {R : Node → α → Prop} (f : α → Data) (h : ∀ a, R (f a).node a) (l : List α) :
    ListNode R (Data.list (l.map f)).node l := by
  refine ⟨l.map fun a => (f a).node, ?_, Each.map _ h _⟩
  rw [Data.node, nodes_map]
  rfl

theorem optData_mem {α : Type} {k k' : Bytes} {f : α → Data} {x : Option α} {v : Node} :
    (k', v) ∈ Data.entries (optData true k f x) ↔ k' = k ∧ ∃ a, x = some a ∧ v = (f a).node := by
  cases x with
  | none => simp [optData, Data.entries]
  | some a => simp [optData, Data.entries]

def commitEntries (c : Commit) : List (Bytes × Node) :=
  (b!"tree", .link c.tree) :: (b!"parents", (Data.list (c.parents.map .link)).node) ::
  (b!"message", .str c.message) ::
  (Data.entries (optData true b!"author" personData c.author) ++
  (Data.entries (optData true b!"committer" personData c.committer) ++
  (Data.entries (optData true b!"encoding" .str c.encoding) ++
  (Data.entries (optData true b!"signature" .str c.signature) ++
  [(b!"mergetag", (Data.list (c.mergetag.map tagData)).node),
   (b!"other", (Data.list (c.other.map .str)).node)]))))

theorem commitData_node (c : Commit) : (commitData true c).node = .map (commitEntries c) := by
  simp only [commitData, Data.node, Data.entries, entries_append, commitEntries]

theorem mem_commitEntries {c : Commit} {k : Bytes} {v : Node} :
    (k, v) ∈ commitEntries c ↔
      (k = b!"tree" ∧ v = .link c.tree) ∨
      (k = b!"parents" ∧ v = (Data.list (c.parents.map .link)).node) ∨
      (k = b!"message" ∧ v = .str c.message) ∨
      (k = b!"author" ∧ ∃ a, c.author = some a ∧ v = (personData a).node) ∨
      (k = b!"committer" ∧ ∃ a, c.committer = some a ∧ v = (personData a).node) ∨
      (k = b!"encoding" ∧ ∃ a, c.encoding = some a ∧ v = (Data.str a).node) ∨
      (k = b!"signature" ∧ ∃ a, c.signature = some a ∧ v = (Data.str a).node) ∨
      (k = b!"mergetag" ∧ v = (Data.list (c.mergetag.map tagData)).node) ∨
      (k = b!"other" ∧ v = (Data.list (c.other.map .str)).node) := by
  simp only [commitEntries, List.mem_append, optData_mem, List.mem_cons, List.not_mem_nil,
    or_false, Prod.mk.injEq]

theorem optData_keys' {α : Type} (k : Bytes) (f : α → Data) (x : Option α) :
    (Data.entries (optData true k f x)).map Prod.fst = optKey k x.isSome := by
  cases x <;> rfl

theorem commitEntries_keys (c : Commit) :
    (commitEntries c).map Prod.fst =
      reprKeys c.author.isSome c.committer.isSome c.encoding.isSome c.signature.isSome := by
  simp only [commitEntries, List.map_append, optData_keys', reprKeys, List.map_cons, List.map_nil,
    List.cons_append, List.nil_append, List.append_assoc]

theorem commit_data (c : Commit) : CommitNode (commitData true c).node c := by
  have key : ∀ k, k ∈ (commitEntries c).map Prod.fst ↔ ∃ v, (k, v) ∈ commitEntries c := by
    intro k
    constructor
    · exact exists_entry
    · rintro ⟨v, hv⟩
      exact List.mem_map_of_mem (f := Prod.fst) hv
  have opt : ∀ {α : Type} (k : Bytes) (R : Node → α → Prop) (f : α → Data) (o : Option α),
      (∀ a, R (f a).node a) → (∀ v, (k, v) ∈ commitEntries c ↔ ∃ a, o = some a ∧ v = (f a).node) →
      OptAt (commitEntries c) k R o := by
    intro α k R f o hR hk
    refine ⟨fun hn => ?_, fun v hv => ?_⟩
    · cases h : o with
      | none => rfl
      | some a => exact absurd ((key _).2 ⟨_, (hk _).2 ⟨a, h, rfl⟩⟩) hn
    · obtain ⟨a, h, rfl⟩ := (hk v).1 hv
      exact Or.inr ⟨a, hR a, h⟩
  rw [commitData_node]
  refine ⟨_, rfl, ?_, ?_, ?_, ?_, ?_, ?_, ?_, ?_, ?_, ?_⟩
  · unfold KeysOk
    rw [commitEntries_keys]
    exact reprKeys_ok _ _ _ _
  · intro v hv
    rw [mem_commitEntries] at hv
    simp at hv
    rw [hv]; exact linkNode_link _
  · intro v hv
    rw [mem_commitEntries] at hv
    simp at hv
    rw [hv]; exact list_data _ (fun a => linkNode_link a) _
  · intro v hv
    rw [mem_commitEntries] at hv
    simp at hv
    rw [hv]; exact strNode_str _
  · exact opt _ _ _ _ person_data fun v => by rw [mem_commitEntries]; simp
  · exact opt _ _ _ _ person_data fun v => by rw [mem_commitEntries]; simp
  · exact opt _ _ .str _ strNode_str fun v => by rw [mem_commitEntries]; simp
  · exact opt _ _ .str _ strNode_str fun v => by rw [mem_commitEntries]; simp
  · intro v hv
    rw [mem_commitEntries] at hv
    simp at hv
    rw [hv]; exact list_data _ tag_data _
  · intro v hv
    rw [mem_commitEntries] at hv
    simp at hv
    rw [hv]; exact list_data _ (fun a => strNode_str a) _

theorem rebuild_own (t : T) (v : Own) (hv : v.proto = protoOf t) {cs : List (Nat × Call)}
    (h : Feeds (ownData true v).node cs) : buildBy t cs = .ok (valOf v) := by
  cases t <;> cases v <;> first | cases hv | skip
  case string.string b => rw [(agree_same (agree_string False) h).1]; rfl
  case gpgSig.gpgSig b => rw [(agree_same (agree_gpgSig False) h).1]; rfl
  case link.link b => rw [(agree_same (agree_lnk False) h).1]; rfl
  case treeLink.treeLink b => rw [(agree_same (agree_treeLink False) h).1]; rfl
  case commitLink.commitLink b => rw [(agree_same (agree_commitLink False) h).1]; rfl
  case linkList.linkList l =>
    rw [(agree_same (agree_linkList False) h).1, ownData, (assignLinkList_ok _ l).2 (list_data .link linkNode_link _)]; rfl
  case stringList.stringList l =>
    rw [(agree_same (agree_stringList False) h).1, ownData, (assignStringList_ok _ l).2 (list_data .str strNode_str _)]; rfl
  case tagList.tagList l =>
    rw [(agree_same (agree_tagList False) h).1, ownData, (assignTagList_ok _ l).2 (list_data _ tag_data _)]; rfl
  case person.person p => exact (calls_build_person h _).2 ⟨p, person_data p, rfl⟩
  case treeEntry.treeEntry e => exact (calls_build_treeEntry h _).2 ⟨e, treeEntry_data e, rfl⟩
  case tag.tag g => exact (calls_build_tag h _).2 ⟨g, tag_data g, rfl⟩
  case commit.commit c => exact (calls_build_commit h _).2 ⟨c, commit_data c, rfl⟩

theorem viewOf_true (v : Own) : viewOf true v = v.representation := rfl

/-- Whatever is read from a value's representation, given call by call to a builder of
its type, builds that value again. -/
theorem rebuild (t : T) (v : Own) (hv : v.proto = protoOf t) {d : Data} (hd : Reads v.representation d)
    {cs : List (Nat × Call)} (h : Feeds d.node cs) : buildBy t cs = .ok (valOf v) := by
  rw [reads_unique hd (reads_own true v)] at h
  exact rebuild_own t v hv h

mutual
/-- Data has no absent values. -/
def noAbsent : Data → Prop
  | .list ds => noAbsents ds
  | .map es => noAbsentIn es
  | .absent => False
  | .str _ => True
  | .bytes _ => True
  | .link _ => True
def noAbsents : List Data → Prop
  | [] => True
  | d :: ds => noAbsent d ∧ noAbsents ds
def noAbsentIn : List (Bytes × Data) → Prop
  | [] => True
  | (_, d) :: es => noAbsent d ∧ noAbsentIn es
end

mutual
theorem feeds_of (d : Data) (h : noAbsent d) : ∃ cs, Feeds d.node cs :=
  match d with
  | .str _ => ⟨_, by rw [Data.node]; exact .str _⟩
  | .bytes _ => ⟨_, by rw [Data.node]; exact .bytes _⟩
  | .link _ => ⟨_, by rw [Data.node]; exact .link _⟩
  | .list ds => by
    rw [noAbsent] at h
    obtain ⟨cs, hc⟩ := feeds_of_list ds h
    exact ⟨_, by rw [Data.node]; exact .list 0 hc⟩
  | .map es => by
    rw [noAbsent] at h
    obtain ⟨cs, hc⟩ := feeds_of_map es h
    exact ⟨_, by rw [Data.node]; exact .map hc⟩
  | .absent => by rw [noAbsent] at h; exact h.elim
theorem feeds_of_list (ds : List Data) (h : noAbsents ds) : ∃ cs, FeedsList (Data.nodes ds) cs :=
  match ds with
  | [] => ⟨_, by rw [Data.nodes]; exact .nil⟩
  | d :: ds => by
    rw [noAbsents] at h
    obtain ⟨c, h1⟩ := feeds_of d h.1
    obtain ⟨cs, h2⟩ := feeds_of_list ds h.2
    exact ⟨_, by rw [Data.nodes]; exact .cons h1 h2⟩
theorem feeds_of_map (es : List (Bytes × Data)) (h : noAbsentIn es) : ∃ cs, FeedsMap (Data.entries es) cs :=
  match es with
  | [] => ⟨_, by rw [Data.entries]; exact .nil⟩
  | (k, d) :: es => by
    rw [noAbsentIn] at h
    obtain ⟨c, h1⟩ := feeds_of d h.1
    obtain ⟨cs, h2⟩ := feeds_of_map es h.2
    exact ⟨_, by rw [Data.entries]; exact .cons .entry h1 h2⟩
end

theorem noAbsents_of (ds : List Data) (h : ∀ d ∈ ds, noAbsent d) : noAbsents ds := by
  induction ds with
  | nil => rw [noAbsents]; trivial
  | cons d ds ih =>
    rw [noAbsents]
    exact ⟨h d (by simp), ih fun d hd => h d (by simp [hd])⟩

theorem noAbsentIn_of (es : List (Bytes × Data)) (h : ∀ p ∈ es, noAbsent p.2) : noAbsentIn es := by
  induction es with
  | nil => rw [noAbsentIn]; trivial
  | cons e es ih =>
    obtain ⟨k, d⟩ := e
    rw [noAbsentIn]
    exact ⟨h (k, d) (by simp), ih fun p hp => h p (by simp [hp])⟩

theorem conforms_noAbsent {t : Ty} {d : Data} (h : Conforms true t d) : noAbsent d :=
  Conforms.rec (motive_1 := fun _ d _ => noAbsent d) (motive_2 := fun _ es _ => noAbsentIn es)
    (by intros; rw [noAbsent]; trivial) (by intros; rw [noAbsent]; trivial) (by intros; rw [noAbsent]; trivial)
    (by intro t e ds _ _ ih; rw [noAbsent]; exact noAbsents_of ds ih)
    (by intro t e ds _ _ _ ih; rw [noAbsent]; exact noAbsentIn_of ds ih)
    (by intro t e ds _ _ ih; rw [noAbsent]; exact ih)
    (by rw [noAbsentIn]; trivial)
    (by intro f fs d es _ _ h1 h2; rw [noAbsentIn]; exact ⟨h1, h2⟩)
    (by intro f fs es _ _ _ h; exact h)
    (by intro f fs es hr; cases hr) h

theorem schemaType_proto {t : T} {v : Own} (h : tyOf v = schemaType t) : v.proto = protoOf t := by
  cases t <;> cases v <;> first | rfl | cases h

/-- Data of a type, in representation form, can be given call by call, and builds a
value whose representation reads as that data. -/
theorem conforming_builds (t : T) {d : Data} (h : Conforms true (schemaType t) d) :
    (∃ cs, Feeds d.node cs) ∧
    ∃ v, tyOf v = schemaType t ∧ Reads v.representation d ∧
      ∀ cs, Feeds d.node cs → buildBy t cs = .ok (valOf v) := by
  refine ⟨feeds_of d (conforms_noAbsent h), ?_⟩
  obtain ⟨v, hv, hr, -⟩ := conforming_is_node true _ d h
  exact ⟨v, hv, hr, fun cs hc => rebuild t v (schemaType_proto hv) hr hc⟩

theorem reads_feeds (t : T) (v : Own) (hv : v.proto = protoOf t) {d : Data} (hd : Reads v.representation d) :
    ∃ cs, Feeds d.node cs := by
  refine feeds_of d (conforms_noAbsent (t := tyOf v) ?_)
  rw [reads_unique hd (reads_own true v)]
  exact conf_own true v fun u hu => by subst hu; cases t <;> cases hv

/-! ## Values of the call model tell Go values apart -/

theorem map_text_inj {a b : List Bytes} (h : a.map Val.text = b.map Val.text) : a = b :=
  map_inj _ (fun _ _ h => by cases h; rfl) _ _ h

theorem map_link_inj {a b : List Link} (h : a.map Val.link = b.map Val.link) : a = b :=
  map_inj _ (fun _ _ h => by cases h; rfl) _ _ h

theorem tagVal_inj {a b : Tag} (h : tagVal a = tagVal b) : a = b := by
  cases a; cases b
  simp only [tagVal, Val.struct.injEq, List.cons.injEq, Option.some.injEq, Val.text.injEq, Val.link.injEq,
    and_true] at h
  obtain ⟨h1, h2, h3, h4, h5⟩ := h
  rw [h1, h2, h3, personVal_inj h4, h5]

theorem option_map_inj {α β : Type} {f : α → β} (hf : ∀ a b, f a = f b → a = b) {x y : Option α}
    (h : x.map f = y.map f) : x = y := by
  cases x <;> cases y <;> simp at h
  · rfl
  · rw [hf _ _ h]

theorem commitVal_inj {a b : Commit} (h : commitVal a = commitVal b) : a = b := by
  cases a; cases b
  simp only [commitVal, Val.struct.injEq, List.cons.injEq, Option.some.injEq, Val.text.injEq, Val.link.injEq,
    Val.list.injEq, and_true] at h
  obtain ⟨h1, h2, h3, h4, h5, h6, h7, h8, h9⟩ := h
  rw [h1, map_link_inj h2, h3, option_map_inj (fun _ _ => personVal_inj) h4,
    option_map_inj (fun _ _ => personVal_inj) h5, option_map_inj (fun _ _ h => by cases h; rfl) h6,
    option_map_inj (fun _ _ h => by cases h; rfl) h7, map_inj _ (fun _ _ => tagVal_inj) _ _ h8, map_text_inj h9]

/-- Values of one type are told apart, so what is built from the calls is one value
only. -/
theorem valOf_inj (t : T) {v w : Own} (hv : v.proto = protoOf t) (hw : w.proto = protoOf t)
    (h : valOf v = valOf w) : v = w := by
  cases t <;> cases v <;> first | (cases hv; done) | (cases w <;> first | (cases hw; done) | skip)
  case string.string.string => cases h; rfl
  case gpgSig.gpgSig.gpgSig => cases h; rfl
  case link.link.link => cases h; rfl
  case treeLink.treeLink.treeLink => cases h; rfl
  case commitLink.commitLink.commitLink => cases h; rfl
  case linkList.linkList.linkList => rw [map_link_inj (Val.list.inj h)]
  case stringList.stringList.stringList => rw [map_text_inj (Val.list.inj h)]
  case tagList.tagList.tagList => rw [map_inj _ (fun _ _ => tagVal_inj) _ _ (Val.list.inj h)]
  case person.person.person => rw [personVal_inj h]
  case treeEntry.treeEntry.treeEntry a b =>
    cases a; cases b
    cases h; rfl
  case tag.tag.tag => rw [tagVal_inj h]
  case commit.commit.commit => rw [commitVal_inj h]

/-! ## Cases -/

namespace FeedExample

def who : PersonInfo := { date := b!"1700000000", timezone := b!"+0100", email := b!"a@b.c", name := b!"A" }

def commit : Commit :=
  { Commit.zero with message := b!"first", author := some who, encoding := some b!"latin1", other := [b!"x y"] }

/-- The calls for a person, entries named in both ways and out of order. -/
def personCalls : List (Nat × Call) := [
  (0, .beginMap),
  (0, .assembleEntry b!"name"), (1, .assignString b!"A"),
  (0, .assembleKey), (0, .keyAssign b!"date"), (0, .assembleValue), (1, .assignString b!"1700000000"),
  (0, .assembleEntry b!"email"), (1, .assignString b!"a@b.c"),
  (0, .assembleEntry b!"timezone"), (1, .assignString b!"+0100"),
  (0, .finish)]

theorem person_feeds : Feeds (.map [(b!"name", .str b!"A"), (b!"date", .str b!"1700000000"),
    (b!"email", .str b!"a@b.c"), (b!"timezone", .str b!"+0100")]) personCalls :=
  .map (cs := _) (.cons .entry (.str _) (.cons .keyValue (.str _) (.cons .entry (.str _) (.cons .entry (.str _) .nil))))

/-- C69. -/
example : buildBy .person personCalls = .ok (personVal who) :=
  (calls_build_person person_feeds _).2 ⟨who, (build_person _ _).1 (by decide), rfl⟩

/-- C69: a field of the wrong kind is refused, with the error of `AssignNode`. -/
example : ∃ e, buildBy .person [(0, .beginMap), (0, .assembleEntry b!"name"), (1, .assignNull), (0, .finish)] = .err e :=
  ⟨_, (calls_match_assign (fun _ => 0) .person (by decide)
    (.map (.cons .entry .null .nil) : Feeds (.map [(b!"name", .null)]) _)).trans rfl⟩

/-- C69: a commit with an author. -/
example : ∃ cs, Feeds (commitData true commit).node cs ∧
    Proto.commit.assignNode (fun _ => 0) (commitData true commit).node = .panic ∧
    buildBy .commit cs = .ok (commitVal commit) := by
  obtain ⟨cs, h⟩ := feeds_of _ (conforms_noAbsent (conf_commit true commit))
  exact ⟨cs, h, assign_commit_panics _ h (commit_data _) (Or.inl (by decide))⟩

/-- C70. -/
example : ∃ d cs, Reads (Own.commit commit).representation d ∧ Feeds d.node cs ∧
    buildBy .commit cs = .ok (valOf (.commit commit)) := by
  obtain ⟨cs, h⟩ := reads_feeds .commit (.commit commit) rfl (reads_own true (.commit commit))
  exact ⟨_, cs, reads_own true (.commit commit), h, rebuild .commit (.commit commit) rfl (reads_own true (.commit commit)) h⟩

end FeedExample

end Verif.Props
