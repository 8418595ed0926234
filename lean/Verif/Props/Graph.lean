import Verif.Proofs.Graph
import Verif.Props.Lookup
import Verif.Props.Mismatch
import Verif.Props.Headers
import Verif.Props.Order

/-!
# C65: paths across the git graph
-/

namespace Verif.Props

open Verif Spec

/-! ## What is stored is what is shown -/

theorem parse_text {o : GitObj} (ho : o.Ok) {data : Bytes} (hd : o.Text data) :
    ∃ x, parseObject (σ := Stream) ⟨data, .eof, 4096⟩ = .ok x ∧ Shows o (.own x.own) ∧
      ((∃ c, o = .blob c) ↔ ∃ b, x = .blob b) ∧ ((∃ es, o = .tree es) ↔ ∃ t, x = .tree t) ∧
      ((∃ is m, o = .commit is m) ↔ ∃ c, x = .commit c) ∧ ((∃ is m, o = .tag is m) ↔ ∃ t, x = .tag t) ∧
      (∀ b, x = .blob b → Shows o (.bytes b)) := by
  obtain ⟨hlen, ho⟩ := ho
  cases o with
  | blob c =>
    have := (blob_roundtrip c data [] .eof 4096 hlen hd).1
    rw [List.append_nil] at this
    exact ⟨_, this, .blob c data _ hd rfl, by simp, by simp, by simp, by simp, fun b hb => by
      cases hb; exact .blob c data _ hd rfl⟩
  | tree es =>
    obtain ⟨t, h1, h2, _⟩ := tree_bytes es ho data hd hlen 4096
    exact ⟨_, h1, .tree es t _ h2 (decoded_agree _ _ h1) (.inl rfl), by simp, by simp, by simp, by simp, by simp⟩
  | commit is msg =>
    have : parseObject (σ := Stream) ⟨data, .eof, 4096⟩ = .ok (.commit (commitOf is msg)) := by
      rw [parse_commit_framed hd _ _ hlen]
      show (commitRun Commit.zero (⟨itemsBody is msg, .eof, 4096⟩ : Stream) >>= _) = _
      rw [commitRun_itemsBody is msg 4096 (Nat.le_refl _) ho.1]
      rfl
    exact ⟨_, this, .commit is msg _ (.inl rfl), by simp, by simp, by simp, by simp, by simp⟩
  | tag is msg =>
    exact ⟨_, parse_tagItems 4096 (Nat.le_refl _) is ho.1 msg data hd, .tag is msg _ (.inl rfl),
      by simp, by simp, by simp, by simp, by simp⟩

/-- The prototype for what a reference is meant for. -/
def wantProto : Want → Option Proto
  | .tree => some .tree
  | .commit => some .commit
  | .any => none

/-! ## Loading -/

theorem load_git (L : LinkSys) (pol : TreeAsm → Nat) (sha : Bytes) (np : Option Proto) :
    L.load pol (gitLink sha) np = (do
      let data ← L.get (cidOf sha)
      if cidOf sha = cidOf (L.sha1 data) then
        match np with
        | some P => do .ok (.own (← decode (P.sink pol) (⟨data, .eof, 4096⟩ : Stream)))
        | none => decode anySink (⟨data, .eof, 4096⟩ : Stream)
      else .err L.mismatch) := by
  show (if cidOf sha = cidOf ((cidOf sha).hash.drop 2) then _ else _) = _
  rw [if_pos (by rfl)]
  rfl

/-- Loading what a reference names, for every reference and repository. -/
theorem load_stored {L : LinkSys} {R : Bytes → Option GitObj} (hs : Stores L R) (pol : TreeAsm → Nat) (sha : Bytes)
    (w : Want) :
    (R sha = none → ∃ e, L.load pol (gitLink sha) (wantProto w) = .err e) ∧
    (∀ b, R sha = some b → (Meant w b → ∃ k, L.load pol (gitLink sha) (wantProto w) = .ok k ∧ Shows b k) ∧
      (¬ Meant w b →
        (w = .tree ∧ ((∃ is m, b = .commit is m) ∨ ∃ is m, b = .tag is m) → L.load pol (gitLink sha) (wantProto w) = .panic) ∧
        (¬ (w = .tree ∧ ((∃ is m, b = .commit is m) ∨ ∃ is m, b = .tag is m)) →
          ∃ e, L.load pol (gitLink sha) (wantProto w) = .err e))) := by
  rw [load_git]
  constructor
  · intro h
    obtain ⟨e, he⟩ := hs.only sha h
    exact ⟨e, by rw [he]; rfl⟩
  · intro b hb
    obtain ⟨hok, data, hget, htext, hsha⟩ := hs.there sha b hb
    obtain ⟨x, hx, hshow, h1, h2, h3, h4, h5⟩ := parse_text hok htext
    rw [hget]
    simp only [Res.bind_ok, hsha, if_true]
    cases w with
    | any =>
      refine ⟨fun _ => ?_, fun h => absurd trivial h⟩
      simp only [wantProto, decode_parse, hx, Res.bind_ok]
      cases x with
      | blob c => exact ⟨_, rfl, h5 c rfl⟩
      | _ => exact ⟨_, rfl, hshow⟩
    | tree =>
      have hd := (decode_into pol .tree ⟨data, .eof, 4096⟩).1 x hx
      simp only [wantProto]
      constructor
      · intro hf
        cases b with
        | tree es =>
          obtain ⟨t, rfl⟩ := h2.1 ⟨es, rfl⟩
          exact ⟨_, by rw [hd.1 rfl]; rfl, hshow⟩
        | _ => exact hf.elim
      · intro hf
        constructor
        · rintro ⟨_, hb' | hb'⟩
          · obtain ⟨c, rfl⟩ := h3.1 hb'
            rw [hd.2.1 (by simp [Obj.own, Own.proto]) trivial]; rfl
          · obtain ⟨c, rfl⟩ := h4.1 hb'
            rw [hd.2.1 (by simp [Obj.own, Own.proto]) trivial]; rfl
        · intro hn
          cases b with
          | tree es => exact absurd trivial hf
          | commit is m => exact absurd ⟨trivial, .inl ⟨is, m, rfl⟩⟩ hn
          | tag is m => exact absurd ⟨trivial, .inr ⟨is, m, rfl⟩⟩ hn
          | blob c =>
            obtain ⟨b, rfl⟩ := h1.1 ⟨c, rfl⟩
            obtain ⟨e, he⟩ := hd.2.2 (by simp [Obj.own, Own.proto]) (by simp [Panics])
            exact ⟨e, by rw [he]; rfl⟩
    | commit =>
      have hd := (decode_into pol .commit ⟨data, .eof, 4096⟩).1 x hx
      simp only [wantProto]
      constructor
      · intro hf
        cases b with
        | commit is m =>
          obtain ⟨t, rfl⟩ := h3.1 ⟨is, m, rfl⟩
          exact ⟨_, by rw [hd.1 rfl]; rfl, hshow⟩
        | _ => exact hf.elim
      · intro hf
        refine ⟨fun h => by simp at h, fun _ => ?_⟩
        have hne : x.own.proto ≠ .commit := by
          intro hp
          cases x with
          | commit c =>
            obtain ⟨is, m, rfl⟩ := h3.2 ⟨c, rfl⟩
            exact hf trivial
          | _ => simp [Obj.own, Own.proto] at hp
        obtain ⟨e, he⟩ := hd.2.2 hne (by simp [Panics])
        exact ⟨e, by rw [he]; rfl⟩

/-! ## References are links -/

theorem commitOf_tree {is : List Item} (msg : Bytes) {sha : Bytes} (h : (treeRefs is).getLast? = some sha) :
    (commitOf is msg).tree = gitLink sha := by
  have : ∀ (is : List Item) (c : Commit), (is.foldl Item.apply c).tree =
      (((treeRefs is).getLast?).map gitLink).getD c.tree := by
    intro is
    induction is with
    | nil => intro c; rfl
    | cons i is ih =>
      intro c
      rw [List.foldl_cons, ih]
      cases i with
      | tree x sha =>
        simp only [treeRefs, List.filterMap_cons, List.getLast?_cons, Item.apply]
        cases (is.filterMap fun | .tree _ sha => some sha | _ => none).getLast? <;> rfl
      | _ => rfl
  show (is.foldl Item.apply noCommit).tree = _
  rw [this, h]
  rfl

theorem commitOf_parents (is : List Item) (msg : Bytes) : (commitOf is msg).parents = (parentRefs is).map gitLink := by
  show (is.foldl Item.apply noCommit).parents = _
  rw [foldl_parents]
  simp only [noCommit, List.nil_append, parentRefs, List.map_filterMap]
  congr 1
  funext i
  cases i <;> rfl

theorem commitOf_merge {is : List Item} (h : ItemsOk 4096 is) (msg : Bytes) (i : Nat) (sha : Bytes) :
    (mergeRefs is)[i]? = some sha ↔ ∃ t, (commitOf is msg).mergetag[i]? = some t ∧ t.object = gitLink sha := by
  have hm : (commitOf is msg).mergetag = is.filterMap fun | .mergetag _ t => some t | _ => none := by
    show (is.foldl Item.apply noCommit).mergetag = _
    rw [foldl_mergetag]; rfl
  have hr : mergeRefs is = (commitOf is msg).mergetag.map fun t => digest t.object := by
    rw [hm]
    simp only [mergeRefs, List.map_filterMap]
    congr 1
    funext i
    cases i <;> rfl
  rw [hr, List.getElem?_map]
  constructor
  · intro hx
    rw [Option.map_eq_some_iff] at hx
    obtain ⟨t, ht, rfl⟩ := hx
    refine ⟨t, ht, ?_⟩
    have := List.mem_of_getElem? ht
    rw [hm, List.mem_filterMap] at this
    obtain ⟨j, hj, hjt⟩ := this
    have hok := itemsOk_mem is _ h j hj
    cases j <;> simp at hjt
    subst hjt
    obtain ⟨sha, _, hl⟩ := hok.2.object
    rw [hl, digest_gitLink]
  · rintro ⟨t, ht, ho⟩
    rw [ht, Option.map_some, ho, digest_gitLink]

theorem tagOf_object {is : List TagItem} (msg : Bytes) {sha : Bytes} (h : (objectRefs is).getLast? = some sha) :
    (tagOf is msg).object = gitLink sha := by
  have : ∀ (is : List TagItem) (c : Tag), (is.foldl TagItem.apply c).object =
      (((objectRefs is).getLast?).map gitLink).getD c.object := by
    intro is
    induction is with
    | nil => intro c; rfl
    | cons i is ih =>
      intro c
      rw [List.foldl_cons, ih]
      cases i with
      | object x sha =>
        simp only [objectRefs, List.filterMap_cons, List.getLast?_cons, TagItem.apply]
        cases (is.filterMap fun | .object _ sha => some sha | _ => none).getLast? <;> rfl
      | _ => rfl
  show (is.foldl TagItem.apply noTag).object = _
  rw [this, h]
  rfl

theorem getLast_some {α : Type} {l : List α} (h : l ≠ []) : ∃ a, l.getLast? = some a :=
  ⟨_, List.getLast?_eq_some_getLast h⟩

/-- Every link inside an object is one of its references. -/
theorem shows_links {b : GitObj} (hb : b.Ok) {n : Node} (hn : Shows b n) {r : List Seg} {l : Node}
    (hr : Reach n r l) (hl : l.kind = .link) :
    ∃ w sha, Refers b r w sha ∧ l.asLink = .ok (gitLink sha) ∧ l.target = wantProto w := by
  cases hn with
  | blob c out _ h hn =>
    exfalso
    have : n = .bytes out ∨ n = .own (.blob out) ∨ n = .repr (.blob out) := by
      unfold Node.asBytes at hn
      split at hn <;> simp at hn <;> simp [hn]
    rcases this with rfl | rfl | rfl <;> obtain ⟨_, rfl⟩ := reach_leaf rfl rfl hr <;> simp [Node.kind, Own.kind] at hl
  | tree es t _ ht _ hn =>
    obtain ⟨g, f, row, rfl, hrow, hg, hf, rfl⟩ := reach_tree hn hr hl
    rw [ht, List.mem_map] at hrow
    obtain ⟨e, he, rfl⟩ := hrow
    exact ⟨.any, e.sha, .entry es e g f he hg hf, rfl, rfl⟩
  | commit is msg _ hn =>
    cases reach_commit hn hr hl with
    | tree g hg =>
      obtain ⟨sha, hsha⟩ := getLast_some hb.2.2
      exact ⟨.tree, sha, .tree is msg g sha hg hsha, by rw [← commitOf_tree msg hsha]; rfl, rfl⟩
    | parent g k i l' hg hk hl' =>
      rw [commitOf_parents, List.getElem?_map, Option.map_eq_some_iff] at hl'
      obtain ⟨sha, hsha, rfl⟩ := hl'
      exact ⟨.commit, sha, .parent is msg g k i sha hg hk hsha, rfl, rfl⟩
    | merge g k f i t hg hk hf ht =>
      have hmem := List.mem_of_getElem? ht
      have hm : (commitOf is msg).mergetag = is.filterMap fun | .mergetag _ t => some t | _ => none := by
        show (is.foldl Item.apply noCommit).mergetag = _
        rw [foldl_mergetag]; rfl
      rw [hm, List.mem_filterMap] at hmem
      obtain ⟨j, hj, hjt⟩ := hmem
      have hok := itemsOk_mem is _ hb.2.1 j hj
      cases j <;> simp at hjt
      subst hjt
      obtain ⟨sha, _, hl⟩ := hok.2.object
      exact ⟨.any, sha, .merge is msg g k f i sha hg hk hf ((commitOf_merge hb.2.1 msg i sha).2 ⟨_, ht, hl⟩),
        by rw [← hl]; rfl, rfl⟩
  | tag is msg _ hn =>
    obtain ⟨g, rfl, hg, rfl⟩ := reach_tag hn hr hl
    obtain ⟨sha, hsha⟩ := getLast_some hb.2.2
    exact ⟨.any, sha, .object is msg g sha hg hsha, by rw [← tagOf_object (msg.getD []) hsha]; rfl, rfl⟩

/-- Every reference of an object is a link inside it. -/
theorem refers_links {b : GitObj} (hb : b.Ok) {n : Node} (hn : Shows b n) {r : List Seg} {w : Want} {sha : Bytes}
    (h : Refers b r w sha) :
    ∃ l, Reach n r l ∧ l.kind = .link ∧ l.asLink = .ok (gitLink sha) ∧ l.target = wantProto w := by
  cases h with
  | tree is msg g _ hg hsha =>
    cases hn with
    | commit _ _ _ hn =>
      exact ⟨_, commitLinks_reach hn (.tree g hg), rfl, by rw [← commitOf_tree msg hsha]; rfl, rfl⟩
  | parent is msg g k i _ hg hk hsha =>
    cases hn with
    | commit _ _ _ hn =>
      exact ⟨_, commitLinks_reach hn (.parent g k i (gitLink sha) hg hk (by rw [commitOf_parents]; simp [hsha])), rfl, rfl, rfl⟩
  | merge is msg g k f i _ hg hk hf hsha =>
    cases hn with
    | commit _ _ _ hn =>
      obtain ⟨t, ht, ho⟩ := (commitOf_merge hb.2.1 msg i sha).1 hsha
      exact ⟨_, commitLinks_reach hn (.merge g k f i t hg hk hf ht), rfl, by rw [← ho]; rfl, rfl⟩
  | object is msg g _ hg hsha =>
    cases hn with
    | tag _ _ _ hn => exact ⟨_, tag_reach hn hg, rfl, by rw [← tagOf_object (msg.getD []) hsha]; rfl, rfl⟩
  | entry es e g f he hg hf =>
    cases hn with
    | tree _ t _ ht _ hn =>
      exact ⟨_, tree_reach (row := e.row) hn (by rw [ht]; exact List.mem_map_of_mem he) hg hf, rfl, rfl, rfl⟩

/-! ## Walking between links -/

/-- A node inside an object: of the package, or without children. -/
def Inside (n : Node) : Prop :=
  (n.mapIterator = none ∧ n.listIterator = none ∧ ∀ g, n.lookupSegment g = .err .wrongKind) ∨
  ∃ v, NodeOf n v ∧ Agree v

theorem inside_ok {n : Node} (h : Inside n) (g : Seg) (m : Node) : n.lookupSegment g = .ok m ↔ Child n g m := by
  rcases h with ⟨h1, h2, h3⟩ | ⟨v, hv, ha⟩
  · rw [h3]; simp [child_none n g m h1 h2]
  · exact segment_ok n v hv ha g m

theorem inside_panic {n : Node} (h : Inside n) (g : Seg) :
    n.lookupSegment g = .panic ↔ n.listIterator ≠ none ∧ ∃ i, StandsFor g i ∧ i < 0 := by
  rcases h with ⟨h1, h2, h3⟩ | ⟨v, hv, ha⟩
  · rw [h3, h2]; simp
  · exact segment_panic n v hv g

theorem inside_child {n : Node} (h : Inside n) {g : Seg} {m : Node} (hc : Child n g m) : Inside m := by
  rcases h with ⟨h1, h2, _⟩ | ⟨v, hv, _⟩
  · exact absurd hc (child_none n g m h1 h2)
  · rcases child_node n v hv g m hc with rfl | h
    · exact .inl ⟨rfl, rfl, fun _ => rfl⟩
    · exact .inr h

theorem shows_inside {b : GitObj} {n : Node} (h : Shows b n) : Inside n ∧ n.kind ≠ .link := by
  cases h with
  | blob c out _ h hn =>
    have : n = .bytes out ∨ n = .own (.blob out) ∨ n = .repr (.blob out) := by
      unfold Node.asBytes at hn
      split at hn <;> simp at hn <;> simp [hn]
    rcases this with rfl | rfl | rfl <;>
      exact ⟨.inl ⟨rfl, rfl, fun _ => rfl⟩, by simp [Node.kind, Own.kind]⟩
  | tree es t _ ht ha hn =>
    exact ⟨.inr ⟨_, hn, ha⟩, by rcases hn with rfl | rfl <;> simp [Node.kind, Own.kind]⟩
  | commit is msg _ hn =>
    exact ⟨.inr ⟨_, hn, trivial⟩, by rcases hn with rfl | rfl <;> simp [Node.kind, Own.kind]⟩
  | tag is msg _ hn =>
    exact ⟨.inr ⟨_, hn, trivial⟩, by rcases hn with rfl | rfl <;> simp [Node.kind, Own.kind]⟩

theorem asLink_kind (n : Node) : (∃ l, n.asLink = .ok l) ↔ n.kind = .link := by
  cases n with
  | own v => cases v <;> simp [Node.asLink, Node.kind, Own.kind]
  | repr v => cases v <;> simp [Node.asLink, Node.kind, Own.kind]
  | _ => simp [Node.asLink, Node.kind]

theorem deref_other (L : LinkSys) (pol : TreeAsm → Nat) {n : Node} (h : n.kind ≠ .link) : L.deref pol n = .ok n := by
  unfold LinkSys.deref
  split
  · rename_i l hl
    exact absurd ((asLink_kind n).1 ⟨l, hl⟩) h
  · rfl

theorem deref_link (L : LinkSys) (pol : TreeAsm → Nat) {n : Node} {l : Link} (h : n.asLink = .ok l) :
    L.deref pol n = L.load pol l n.target := by
  unfold LinkSys.deref
  rw [h]

theorem walk_append (L : LinkSys) (pol : TreeAsm → Nat) (p q : List Seg) (n : Node) :
    L.walk pol n (p ++ q) = L.walk pol n p >>= fun m => L.walk pol m q := by
  induction p generalizing n with
  | nil => rfl
  | cons g p ih =>
    simp only [List.cons_append, LinkSys.walk]
    cases n.lookupSegment g with
    | ok m =>
      simp only [Res.bind_ok]
      cases L.deref pol m with
      | ok k => simp only [Res.bind_ok, ih]
      | err e => rfl
      | panic => rfl
    | err e => rfl
    | panic => rfl

/-- A walk from a node inside an object stays inside it or comes to a link. -/
theorem walk_split (L : LinkSys) (pol : TreeAsm → Nat) (p : List Seg) : ∀ (x : Node), Inside x → x.kind ≠ .link → ∀ m,
    L.walk pol x p = .ok m ↔ (Reach x p m ∧ m.kind ≠ .link) ∨
      ∃ p1 p2 l k, p = p1 ++ p2 ∧ Reach x p1 l ∧ l.kind = .link ∧ L.deref pol l = .ok k ∧ L.walk pol k p2 = .ok m := by
  induction p with
  | nil =>
    intro x hx hk m
    constructor
    · intro h
      cases h
      exact .inl ⟨.here _, hk⟩
    · rintro (⟨h, _⟩ | ⟨p1, p2, l, k, hp, hr, hl, _⟩)
      · cases h; rfl
      · obtain ⟨rfl, rfl⟩ := List.append_eq_nil_iff.1 hp.symm
        cases hr
        exact absurd hl hk
  | cons g p ih =>
    intro x hx hk m
    simp only [LinkSys.walk]
    constructor
    · intro h
      obtain ⟨y, hy, h⟩ := Res.bind_eq_ok.1 h
      obtain ⟨k, hk', h⟩ := Res.bind_eq_ok.1 h
      have hc := (inside_ok hx g y).1 hy
      by_cases hl : y.kind = .link
      · exact .inr ⟨[g], p, y, k, rfl, reach_one hc, hl, hk', h⟩
      · rw [deref_other L pol hl] at hk'
        cases hk'
        rcases (ih y (inside_child hx hc) hl m).1 h with ⟨hr, hm⟩ | ⟨p1, p2, l, k, rfl, hr, h⟩
        · exact .inl ⟨.step _ _ _ _ _ hc hr, hm⟩
        · exact .inr ⟨g :: p1, p2, l, k, rfl, .step _ _ _ _ _ hc hr, h⟩
    · rintro (⟨hr, hm⟩ | ⟨p1, p2, l, k, hp, hr, hl, hd, h⟩)
      · cases hr with
        | step _ _ y _ _ hc hr =>
          rw [(inside_ok hx g y).2 hc, Res.bind_ok]
          by_cases hl : y.kind = .link
          · exfalso
            have hi := inside_child hx hc
            cases hr with
            | here => exact hm hl
            | step _ _ z _ _ hc' _ =>
              rcases hi with ⟨h1, h2, _⟩ | ⟨v, hv, _⟩
              · exact absurd hc' (child_none _ _ _ h1 h2)
              · refine absurd hc' (child_none _ _ _ ?_ ?_) <;> rcases hv with rfl | rfl <;>
                  simp only [Node.kind] at hl <;> simp [Node.mapIterator, Node.listIterator, hl]
          · rw [deref_other L pol hl, Res.bind_ok]
            exact (ih y (inside_child hx hc) hl m).2 (.inl ⟨hr, hm⟩)
      · cases p1 with
        | nil =>
          cases hr
          exact absurd hl hk
        | cons a p1 =>
          cases hp
          cases hr with
          | step _ _ y _ _ hc hr =>
            rw [(inside_ok hx g y).2 hc, Res.bind_ok]
            by_cases hy : y.kind = .link
            · have : p1 = [] ∧ l = y := by
                refine reach_leaf ?_ ?_ hr <;>
                · rcases inside_child hx hc with ⟨h1, h2, _⟩ | ⟨v, hv, _⟩
                  · first | exact h1 | exact h2
                  · rcases hv with rfl | rfl <;> simp only [Node.kind] at hy <;>
                      simp [Node.mapIterator, Node.listIterator, hy]
              obtain ⟨rfl, rfl⟩ := this
              rw [hd, Res.bind_ok]
              exact h
            · rw [deref_other L pol hy, Res.bind_ok]
              exact (ih y (inside_child hx hc) hy m).2 (.inr ⟨p1, p2, l, k, rfl, hr, hl, hd, h⟩)

theorem walk_split_panic (L : LinkSys) (pol : TreeAsm → Nat) (p : List Seg) : ∀ (x : Node), Inside x → x.kind ≠ .link →
    (L.walk pol x p = .panic ↔ (∃ a g b l xs i, p = a ++ g :: b ∧ Reach x a l ∧ l.listIterator = some xs ∧ StandsFor g i ∧ i < 0) ∨
      ∃ p1 p2 l, p = p1 ++ p2 ∧ Reach x p1 l ∧ l.kind = .link ∧
        (L.deref pol l = .panic ∨ ∃ k, L.deref pol l = .ok k ∧ L.walk pol k p2 = .panic)) := by
  induction p with
  | nil =>
    intro x hx hk
    constructor
    · intro h; cases h
    · rintro (⟨a, g, b, l, xs, i, hp, _⟩ | ⟨p1, p2, l, hp, hr, hl, _⟩)
      · simp at hp
      · obtain ⟨rfl, rfl⟩ := List.append_eq_nil_iff.1 hp.symm
        cases hr
        exact absurd hl hk
  | cons g p ih =>
    intro x hx hk
    simp only [LinkSys.walk]
    constructor
    · intro h
      rcases Res.bind_eq_panic.1 h with h | ⟨y, hy, h⟩
      · obtain ⟨h1, i, h2⟩ := (inside_panic hx g).1 h
        obtain ⟨xs, hxs⟩ := Option.ne_none_iff_exists'.1 h1
        exact .inl ⟨[], g, p, x, xs, i, rfl, .here _, hxs, h2⟩
      have hc := (inside_ok hx g y).1 hy
      by_cases hl : y.kind = .link
      · refine .inr ⟨[g], p, y, rfl, reach_one hc, hl, ?_⟩
        exact Res.bind_eq_panic.1 h
      · rw [deref_other L pol hl, Res.bind_ok] at h
        rcases (ih y (inside_child hx hc) hl).1 h with ⟨a, g', b, l, xs, i, rfl, hr, h⟩ | ⟨p1, p2, l, rfl, hr, h⟩
        · exact .inl ⟨g :: a, g', b, l, xs, i, rfl, .step _ _ _ _ _ hc hr, h⟩
        · exact .inr ⟨g :: p1, p2, l, rfl, .step _ _ _ _ _ hc hr, h⟩
    · have leaf : ∀ {y : Node} {r : List Seg} {l : Node}, Inside y → y.kind = .link → Reach y r l → r = [] ∧ l = y := by
        intro y r l hi hy hr
        refine reach_leaf ?_ ?_ hr <;>
        · rcases hi with ⟨h1, h2, _⟩ | ⟨v, hv, _⟩
          · first | exact h1 | exact h2
          · rcases hv with rfl | rfl <;> simp only [Node.kind] at hy <;>
              simp [Node.mapIterator, Node.listIterator, hy]
      rintro (⟨a, g', b, l, xs, i, hp, hr, hxs, hi, hneg⟩ | ⟨p1, p2, l, hp, hr, hl, h⟩)
      · cases a with
        | nil =>
          cases hp
          cases hr
          rw [(inside_panic hx g).2 ⟨by rw [hxs]; simp, i, hi, hneg⟩]
          rfl
        | cons a0 a =>
          cases hp
          cases hr with
          | step _ _ y _ _ hc hr =>
            rw [(inside_ok hx g y).2 hc, Res.bind_ok]
            by_cases hy : y.kind = .link
            · exfalso
              obtain ⟨rfl, rfl⟩ := leaf (inside_child hx hc) hy hr
              rcases inside_child hx hc with ⟨_, h2, _⟩ | ⟨v, hv, _⟩
              · rw [h2] at hxs; cases hxs
              · rcases hv with rfl | rfl <;> simp only [Node.kind] at hy <;>
                  simp [Node.listIterator, hy] at hxs
            · rw [deref_other L pol hy, Res.bind_ok]
              exact (ih y (inside_child hx hc) hy).2 (.inl ⟨a, g', b, l, xs, i, rfl, hr, hxs, hi, hneg⟩)
      · cases p1 with
        | nil =>
          cases hr
          exact absurd hl hk
        | cons a p1 =>
          cases hp
          cases hr with
          | step _ _ y _ _ hc hr =>
            rw [(inside_ok hx g y).2 hc, Res.bind_ok]
            by_cases hy : y.kind = .link
            · obtain ⟨rfl, rfl⟩ := leaf (inside_child hx hc) hy hr
              exact Res.bind_eq_panic.2 h
            · rw [deref_other L pol hy, Res.bind_ok]
              exact (ih y (inside_child hx hc) hy).2 (.inr ⟨p1, p2, l, rfl, hr, hl, h⟩)

theorem refers_ne {b : GitObj} {r : List Seg} {w : Want} {sha : Bytes} (h : Refers b r w sha) : r ≠ [] := by
  cases h <;> simp

/-! ## C65 -/

/-- Every path through the references of the objects leads, in the link system, to
a node that shows the object at its end. -/
theorem graph_path {L : LinkSys} {R : Bytes → Option GitObj} (hs : Stores L R) (pol : TreeAsm → Nat)
    {a b : GitObj} (ha : a.Ok) {n : Node} (hn : Shows a n) {p : List Seg} (h : Way R a p b) :
    b.Ok ∧ ∃ m, L.walk pol n p = .ok m ∧ Shows b m := by
  induction h generalizing n with
  | here o => exact ⟨ha, n, rfl, hn⟩
  | step a p w sha b q c h hb hf _ ih =>
    obtain ⟨l, hr, hk, hl, ht⟩ := refers_links ha hn h
    obtain ⟨k, hload, hshow⟩ := ((load_stored hs pol sha w).2 b hb).1 hf
    obtain ⟨hi, hnk⟩ := shows_inside hn
    have hw : L.walk pol n p = .ok k :=
      (walk_split L pol p n hi hnk k).2 (.inr ⟨p, [], l, k, by simp, hr, hk, by rw [deref_link L pol hl, ht]; exact hload, rfl⟩)
    obtain ⟨hc, m, hm, hsm⟩ := ih (hs.there sha b hb).1 hshow
    exact ⟨hc, m, by rw [walk_append, hw]; exact hm, hsm⟩

/-- Which paths lead to a node, and to which: exactly those that go through
references to an object of the repository, and from there, without leaving the
object, to a node that is no link. -/
theorem graph_path_exact {L : LinkSys} {R : Bytes → Option GitObj} (hs : Stores L R) (pol : TreeAsm → Nat)
    {a : GitObj} (ha : a.Ok) {n : Node} (hn : Shows a n) (p : List Seg) (m : Node) :
    L.walk pol n p = .ok m ↔ ∃ q r b k, p = q ++ r ∧ Way R a q b ∧ L.walk pol n q = .ok k ∧ Shows b k ∧
      Reach k r m ∧ m.kind ≠ .link := by
  constructor
  · intro h
    obtain ⟨N, hN⟩ : ∃ N, p.length ≤ N := ⟨_, Nat.le_refl _⟩
    induction N generalizing a n p with
    | zero =>
      obtain rfl : p = [] := List.length_eq_zero_iff.1 (by omega)
      cases h
      exact ⟨[], [], a, _, rfl, .here a, rfl, hn, .here _, (shows_inside hn).2⟩
    | succ N ih =>
      obtain ⟨hi, hnk⟩ := shows_inside hn
      rcases (walk_split L pol p n hi hnk m).1 h with ⟨hr, hm⟩ | ⟨p1, p2, l, k, rfl, hr, hl, hd, h2⟩
      · exact ⟨[], p, a, n, rfl, .here a, rfl, hn, hr, hm⟩
      · obtain ⟨w, sha, href, hal, ht⟩ := shows_links ha hn hr hl
        have hne := refers_ne href
        rw [deref_link L pol hal, ht] at hd
        have hls := load_stored hs pol sha w
        cases hR : R sha with
        | none =>
          obtain ⟨e, he⟩ := hls.1 hR
          rw [he] at hd
          cases hd
        | some b =>
          by_cases hf : Meant w b
          · obtain ⟨k', hk', hshow⟩ := (hls.2 b hR).1 hf
            rw [hk'] at hd
            cases hd
            have hlen : p2.length ≤ N := by
              have := List.length_pos_iff.2 hne
              simp only [List.length_append] at hN
              omega
            obtain ⟨q, r, c, x, rfl, hway, hwk, hsx, hrx, hmx⟩ := ih (hs.there sha b hR).1 hshow p2 h2 hlen
            have hw1 : L.walk pol n p1 = .ok k :=
              (walk_split L pol p1 n hi hnk k).2 (.inr ⟨p1, [], l, k, by simp, hr, hl, by rw [deref_link L pol hal, ht]; exact hk', rfl⟩)
            refine ⟨p1 ++ q, r, c, x, by simp, .step a p1 w sha b q c href hR hf hway, ?_, hsx, hrx, hmx⟩
            rw [walk_append, hw1]
            exact hwk
          · by_cases hp : w = .tree ∧ ((∃ is m, b = .commit is m) ∨ ∃ is m, b = .tag is m)
            · rw [((hls.2 b hR).2 hf).1 hp] at hd
              cases hd
            · obtain ⟨e, he⟩ := ((hls.2 b hR).2 hf).2 hp
              rw [he] at hd
              cases hd
  · rintro ⟨q, r, b, k, rfl, _, hw, hsk, hr, hm⟩
    rw [walk_append, hw, Res.bind_ok]
    obtain ⟨hi, hnk⟩ := shows_inside hsk
    exact (walk_split L pol r k hi hnk m).2 (.inl ⟨hr, hm⟩)

/-- Which paths panic: those that lead to an object of the repository in which a
negative number is used as a list index, or to a commit whose tree is a commit or
a tag and then on to that tree. -/
theorem graph_panics {L : LinkSys} {R : Bytes → Option GitObj} (hs : Stores L R) (pol : TreeAsm → Nat)
    {a : GitObj} (ha : a.Ok) {n : Node} (hn : Shows a n) (p : List Seg) :
    L.walk pol n p = .panic ↔ ∃ q r b k, p = q ++ r ∧ Way R a q b ∧ L.walk pol n q = .ok k ∧ Shows b k ∧
      ((∃ s g t l xs i, r = s ++ g :: t ∧ Reach k s l ∧ l.listIterator = some xs ∧ StandsFor g i ∧ i < 0) ∨
       (∃ g t sha c, r = g :: t ∧ Refers b [g] .tree sha ∧ R sha = some c ∧
          ((∃ is msg, c = .commit is msg) ∨ ∃ is msg, c = .tag is msg))) := by
  constructor
  · intro h
    obtain ⟨N, hN⟩ : ∃ N, p.length ≤ N := ⟨_, Nat.le_refl _⟩
    induction N generalizing a n p with
    | zero =>
      obtain rfl : p = [] := List.length_eq_zero_iff.1 (by omega)
      cases h
    | succ N ih =>
      obtain ⟨hi, hnk⟩ := shows_inside hn
      rcases (walk_split_panic L pol p n hi hnk).1 h with hneg | ⟨p1, p2, l, rfl, hr, hl, hd⟩
      · exact ⟨[], p, a, n, rfl, .here a, rfl, hn, .inl hneg⟩
      · obtain ⟨w, sha, href, hal, ht⟩ := shows_links ha hn hr hl
        have hne := refers_ne href
        rw [deref_link L pol hal, ht] at hd
        have hls := load_stored hs pol sha w
        cases hR : R sha with
        | none =>
          obtain ⟨e, he⟩ := hls.1 hR
          rw [he] at hd
          rcases hd with hd | ⟨_, hd, _⟩ <;> cases hd
        | some b =>
          by_cases hf : Meant w b
          · obtain ⟨k', hk', hshow⟩ := (hls.2 b hR).1 hf
            rw [hk'] at hd
            rcases hd with hd | ⟨k, hd, h2⟩
            · cases hd
            cases hd
            have hlen : p2.length ≤ N := by
              have := List.length_pos_iff.2 hne
              simp only [List.length_append] at hN
              omega
            obtain ⟨q, r, c, x, rfl, hway, hwk, hsx, hx⟩ := ih (hs.there sha b hR).1 hshow p2 h2 hlen
            have hw1 : L.walk pol n p1 = .ok k' :=
              (walk_split L pol p1 n hi hnk k').2 (.inr ⟨p1, [], l, k', by simp, hr, hl, by rw [deref_link L pol hal, ht]; exact hk', rfl⟩)
            refine ⟨p1 ++ q, r, c, x, by simp, .step a p1 w sha b q c href hR hf hway, ?_, hsx, hx⟩
            rw [walk_append, hw1]
            exact hwk
          · by_cases hp : w = .tree ∧ ((∃ is m, b = .commit is m) ∨ ∃ is m, b = .tag is m)
            · obtain ⟨rfl, hp⟩ := hp
              refine ⟨[], p1 ++ p2, a, n, rfl, .here a, rfl, hn, .inr ?_⟩
              cases href with
              | tree is msg g _ hg hsha => exact ⟨g, p2, sha, b, rfl, .tree is msg g sha hg hsha, hR, hp⟩
            · obtain ⟨e, he⟩ := ((hls.2 b hR).2 hf).2 hp
              rw [he] at hd
              rcases hd with hd | ⟨_, hd, _⟩ <;> cases hd
  · rintro ⟨q, r, b, k, rfl, hway, hw, hsk, hx⟩
    rw [walk_append, hw, Res.bind_ok]
    obtain ⟨hi, hnk⟩ := shows_inside hsk
    refine (walk_split_panic L pol r k hi hnk).2 ?_
    rcases hx with hneg | ⟨g, t, sha, c, rfl, href, hR, hc⟩
    · exact .inl hneg
    · obtain ⟨l, hr, hl, hal, ht⟩ := refers_links (graph_path hs pol ha hn hway).1 hsk href
      refine .inr ⟨[g], t, l, rfl, hr, hl, .inl ?_⟩
      rw [deref_link L pol hal, ht]
      refine (((load_stored hs pol sha .tree).2 c hR).2 ?_).1 ⟨rfl, hc⟩
      rcases hc with ⟨_, _, rfl⟩ | ⟨_, _, rfl⟩ <;> exact id

/-! ## A repository

A file, a directory with it, a commit of the directory, a second commit with the
first as its parent and, wrongly, as its tree, and a tag of the second commit. The
hash is made of the length of the text. -/

def textOf (o : GitObj) : Bytes := o.word ++ SP :: (decimal o.body.length ++ NUL :: o.body)

def exSha (n : UInt8) : Bytes := List.replicate 20 n

def exBlob : GitObj := .blob b!"hello"

def exTree : GitObj := .tree [⟨b!"100644", b!"a", exSha 12⟩]

def exCommit : GitObj :=
  .commit [.tree (hex (exSha 37)) (exSha 37), .author samplePerson, .committer samplePerson] b!"one"

def exWrong : GitObj :=
  .commit [.tree (hex (exSha 160)) (exSha 160), .parent (hex (exSha 160)) (exSha 160), .author samplePerson,
    .committer samplePerson] b!"two"

def exTag : GitObj := .tag [.object (hex (exSha 208)) (exSha 208), .typ b!"commit", .tag b!"v1"] (some b!"three")

def exRepo : List (Bytes × GitObj) :=
  [(exSha 12, exBlob), (exSha 37, exTree), (exSha 160, exCommit), (exSha 208, exWrong), (exSha 80, exTag)]

def exR (sha : Bytes) : Option GitObj := (exRepo.find? (·.1 = sha)).map (·.2)

def exLinkSys : LinkSys where
  get c := match exRepo.find? (fun x => cidOf x.1 = c) with
    | some (_, o) => .ok (textOf o)
    | none => .err (.io 1)
  sha1 data := exSha (UInt8.ofNat data.length)
  mismatch := .io 2
  foreign _ := .err (.io 3)

theorem cidOf_inj (a b : Bytes) : cidOf a = cidOf b ↔ a = b := by simp [cidOf, mhEncodeSha1]

theorem exRepo_ok : ∀ x ∈ exRepo, x.2.Ok ∧ exSha (UInt8.ofNat (textOf x.2).length) = x.1 := by
  intro x hx
  simp only [exRepo, List.mem_cons, List.not_mem_nil, or_false] at hx
  rcases hx with rfl | rfl | rfl | rfl | rfl
  · exact ⟨⟨by decide +kernel, trivial⟩, by decide +kernel⟩
  · refine ⟨⟨by decide +kernel, ?_, by decide +kernel⟩, by decide +kernel⟩
    intro e he
    simp only [List.mem_singleton] at he
    subst he
    exact ⟨by decide, by decide, by decide⟩
  · refine ⟨⟨by decide +kernel, ⟨ref_hex _ (by decide), by simp, ?_⟩, by decide⟩, by decide +kernel⟩
    exact ⟨⟨samplePerson_ok, headerLine_mk (by decide) (Nat.le_refl _)⟩, by simp,
      ⟨samplePerson_ok, headerLine_mk (by decide) (Nat.le_refl _)⟩, by simp, trivial⟩
  · refine ⟨⟨by decide +kernel, ⟨ref_hex _ (by decide), by simp, ref_hex _ (by decide), by simp, ?_⟩, by decide⟩,
      by decide +kernel⟩
    exact ⟨⟨samplePerson_ok, headerLine_mk (by decide) (Nat.le_refl _)⟩, by simp,
      ⟨samplePerson_ok, headerLine_mk (by decide) (Nat.le_refl _)⟩, by simp, trivial⟩
  · refine ⟨⟨by decide +kernel, ?_, by decide⟩, by decide +kernel⟩
    intro i hi
    simp only [List.mem_cons, List.not_mem_nil, or_false] at hi
    rcases hi with rfl | rfl | rfl
    · exact ref_hex _ (by decide)
    · exact headerLine_mk (by decide) (Nat.le_refl _)
    · exact headerLine_mk (by decide) (Nat.le_refl _)

theorem exStores : Stores exLinkSys exR := by
  have hfind : ∀ sha, exRepo.find? (fun x => cidOf x.1 = cidOf sha) = exRepo.find? (·.1 = sha) := by
    intro sha
    congr 1
    funext x
    exact decide_eq_decide.2 (cidOf_inj _ _)
  constructor
  · intro sha o h
    obtain ⟨x, hx, rfl⟩ := Option.map_eq_some_iff.1 h
    obtain ⟨hok, hsha⟩ := exRepo_ok x (List.mem_of_find?_eq_some hx)
    refine ⟨hok, textOf x.2, ?_, ⟨_, decimal_canonical _, rfl⟩, ?_⟩
    · show (match exRepo.find? (fun x => cidOf x.1 = cidOf sha) with | some (_, o) => _ | none => _) = _
      rw [hfind, hx]
    · have := List.find?_some hx
      exact hsha.trans (of_decide_eq_true this)
  · intro sha h
    refine ⟨.io 1, ?_⟩
    show (match exRepo.find? (fun x => cidOf x.1 = cidOf sha) with | some (_, o) => _ | none => _) = _
    rw [hfind, Option.map_eq_none_iff.1 h]

/-- From the tag to the file, through both commits and the directory. -/
example : Way exR exTag
    [.ofString b!"object", .ofString b!"parents", .ofInt 0, .ofString b!"tree", .ofString b!"a", .ofString b!"hash"]
    exBlob := by
  have sp : ∀ k, Spells (.ofString k) k := fun k => .inl ⟨(by decide : (-1 : Int) < 0), rfl⟩
  refine .step exTag [_] .any (exSha 208) exWrong _ _ (.object _ _ _ _ (sp _) rfl) rfl trivial ?_
  refine .step exWrong [_, _] .commit (exSha 160) exCommit _ _ (.parent _ _ _ _ 0 _ (sp _) (.inl ⟨by decide, rfl⟩) rfl)
    rfl trivial ?_
  refine .step exCommit [_] .tree (exSha 37) exTree _ _ (.tree _ _ _ _ (sp _) rfl) rfl trivial ?_
  exact .step exTree [_, _] .any (exSha 12) exBlob [] _ (.entry _ _ _ _ (List.mem_singleton_self _) (sp _) (sp _))
    rfl trivial (.here _)

/-- The second commit's tree is a commit: the path to it panics, with one tag as the
starting point and nothing wrong with any single object. -/
example (pol : TreeAsm → Nat) (n : Node) (hn : Shows exTag n) :
    exLinkSys.walk pol n [.ofString b!"object", .ofString b!"tree"] = .panic := by
  have hok : exTag.Ok := (exRepo_ok (exSha 80, exTag) (by simp [exRepo])).1
  have sp : ∀ k, Spells (.ofString k) k := fun k => .inl ⟨(by decide : (-1 : Int) < 0), rfl⟩
  have hw : Way exR exTag [.ofString b!"object"] exWrong :=
    .step exTag [_] .any (exSha 208) exWrong [] _ (.object _ _ _ _ (sp _) rfl) rfl trivial (.here _)
  obtain ⟨_, k, hk, hs⟩ := graph_path exStores pol hok hn hw
  refine (graph_panics exStores pol hok hn _).2 ⟨_, _, exWrong, k, rfl, hw, hk, hs, .inr ?_⟩
  exact ⟨_, _, exSha 160, exCommit, rfl, .tree _ _ _ _ (sp _) rfl, rfl, .inl ⟨_, _, rfl⟩⟩

end Verif.Props
