import Verif.Props.Transform

/-!
# What edits with `traversal.FocusedTransform` come to (C104)

Consequences of the exact results in `Verif.Props.Transform`.
-/

namespace Verif.Props

open Verif Spec

/-! ## The whole value -/

/-- With the empty path the new value is built from what the function gives. -/
theorem transform_top (pol : TreeAsm → Nat) (repr : Bool) (v : Own) (fn : Change) :
    transform pol repr v fn [] = (do v.proto.assignNode pol (← fn (some (viewOf repr v)))) := by
  have h : ∀ {α : Type} (X : Res Node) (Y : Node → Res α) (g : α → Own),
      ((X >>= fun n => Y n) >>= fun a => Res.ok (g a)) =
        (X >>= fun n => Y n >>= fun a => Res.ok (g a)) := by
    intro α X Y g
    cases X <;> rfl
  cases v with
  | commit c => exact h (fn _) buildCommit Own.commit
  | tag t => exact h (fn _) buildTag Own.tag
  | tree t => exact h (fn _) (assignTree pol) Own.tree
  | person p => exact h (fn _) buildPerson Own.person
  | treeEntry e => exact h (fn _) buildTreeEntry Own.treeEntry
  | linkList l => exact h (fn _) (assignLinkList []) Own.linkList
  | stringList l => exact h (fn _) (assignStringList []) Own.stringList
  | tagList l => exact h (fn _) (assignTagList []) Own.tagList
  | blob b => rfl
  | string b => rfl
  | gpgSig b => rfl
  | link l => rfl
  | treeLink l => rfl
  | commitLink l => rfl

/-! ## Changing nothing -/

/-- Whatever the first node denotes the second one denotes. -/
def Keeps (n n' : Node) : Prop := (n = .absent → n' = .absent) ∧ ∀ v, Means n v → Means n' v

theorem means_map {n n' : Node} {es es' : List (Bytes × Node)} (hn : n.mapIterator = some es)
    (hn' : n'.mapIterator = some es') (hk : es'.map Prod.fst = es.map Prod.fst)
    (hm : ∀ k v', (k, v') ∈ es' → ∃ v, (k, v) ∈ es ∧ Keeps v v') : Keeps n n' := by
  have hat : ∀ {β : Type} (f : β → Own) (P : Node → β → Prop), (∀ n b, Means n (f b) ↔ P n b) →
      ∀ (k : Bytes) (b : β), At es k (P · b) → At es' k (P · b) := by
    intro β f P hf k b ha v' hv'
    obtain ⟨v, h1, h2⟩ := hm k v' hv'
    exact (hf v' b).1 (h2.2 _ ((hf v b).2 (ha v h1)))
  have hstr := hat Own.string StrNode (fun _ _ => Iff.rfl)
  have hlnk := hat Own.link LinkNode (fun _ _ => Iff.rfl)
  have hper := hat Own.person PersonNode (fun _ _ => Iff.rfl)
  have hkeys : ∀ r o, KeysOk r o es → KeysOk r o es' := by
    intro r o h
    unfold KeysOk at h ⊢
    rw [hk]
    exact h
  have hlist : n.listIterator = none := Node.listIterator_none_of_map hn
  have hkind : n.kind = .map := by
    cases n <;> simp [Node.mapIterator] at hn <;> first | rfl | exact hn.1
  refine ⟨fun h => (by subst h; cases hn), ?_⟩
  intro v h
  cases v with
  | blob b => exact absurd h.1 (by rw [hkind]; decide)
  | string b => exact absurd h.1 (by rw [hkind]; decide)
  | gpgSig b => exact absurd h.1 (by rw [hkind]; decide)
  | link b => exact absurd h.1 (by rw [hkind]; decide)
  | treeLink b => exact absurd h.1 (by rw [hkind]; decide)
  | commitLink b => exact absurd h.1 (by rw [hkind]; decide)
  | linkList l => obtain ⟨ns, h, -⟩ := h; rw [hlist] at h; cases h
  | stringList l => obtain ⟨ns, h, -⟩ := h; rw [hlist] at h; cases h
  | tagList l => obtain ⟨ns, h, -⟩ := h; rw [hlist] at h; cases h
  | person p =>
    obtain ⟨es0, h0, h1, a1, a2, a3, a4⟩ := h
    rw [hn] at h0
    cases h0
    exact ⟨es', hn', hkeys _ _ h1, hstr _ _ a1, hstr _ _ a2, hstr _ _ a3, hstr _ _ a4⟩
  | treeEntry p =>
    obtain ⟨es0, h0, h1, a1, a2⟩ := h
    rw [hn] at h0
    cases h0
    exact ⟨es', hn', hkeys _ _ h1, hstr _ _ a1, hlnk _ _ a2⟩
  | tag p =>
    obtain ⟨es0, h0, h1, a1, a2, a3, a4, a5⟩ := h
    rw [hn] at h0
    cases h0
    exact ⟨es', hn', hkeys _ _ h1, hlnk _ _ a1, hstr _ _ a2, hstr _ _ a3, hper _ _ a4,
      hstr _ _ a5⟩
  | tree t => exact h.elim
  | commit c => exact h.elim

/-- The nodes correspond one to one, and each denotes what the other does. -/
def KeepsAll : List Node → List Node → Prop
  | [], [] => True
  | n :: ns, n' :: ns' => Keeps n n' ∧ KeepsAll ns ns'
  | _, _ => False

theorem keepsAll_refl : ∀ ns, KeepsAll ns ns
  | [] => trivial
  | n :: ns => ⟨⟨id, fun _ h => h⟩, keepsAll_refl ns⟩

theorem keepsAll_mid {v v' : Node} (h : Keeps v v') (post : List Node) :
    ∀ pre, KeepsAll (pre ++ v :: post) (pre ++ v' :: post)
  | [] => ⟨h, keepsAll_refl post⟩
  | _ :: pre => ⟨⟨id, fun _ h => h⟩, keepsAll_mid h post pre⟩

theorem keepsAll_each {β : Type} {P : Node → β → Prop} {f : β → Own}
    (hf : ∀ n b, Means n (f b) ↔ P n b) :
    ∀ {ns ns' : List Node} {bs : List β}, KeepsAll ns ns' → Each P ns bs → Each P ns' bs
  | [], [], [], _, _ => trivial
  | n :: ns, n' :: ns', b :: bs, ⟨h1, h2⟩, ⟨h3, h4⟩ =>
    ⟨(hf n' b).1 (h1.2 _ ((hf n b).2 h3)), keepsAll_each hf h2 h4⟩
  | [], _ :: _, _, h, _ => h.elim
  | _ :: _, [], _, h, _ => h.elim
  | [], [], _ :: _, _, h => h.elim
  | _ :: _, _ :: _, [], _, h => h.elim

theorem means_list {n n' : Node} {ns ns' : List Node} (hn : n.listIterator = some ns)
    (hn' : n'.listIterator = some ns') (h : KeepsAll ns ns') : Keeps n n' := by
  have hmap : n.mapIterator = none := Node.mapIterator_none_of_list hn
  have hkind : n.kind = .list := by
    cases n <;> simp [Node.listIterator] at hn <;> first | rfl | exact hn.1
  refine ⟨fun h => (by subst h; cases hn), ?_⟩
  intro v hv
  cases v with
  | blob b => exact absurd hv.1 (by rw [hkind]; decide)
  | string b => exact absurd hv.1 (by rw [hkind]; decide)
  | gpgSig b => exact absurd hv.1 (by rw [hkind]; decide)
  | link b => exact absurd hv.1 (by rw [hkind]; decide)
  | treeLink b => exact absurd hv.1 (by rw [hkind]; decide)
  | commitLink b => exact absurd hv.1 (by rw [hkind]; decide)
  | linkList l =>
    obtain ⟨ns0, h0, h1⟩ := hv
    rw [hn] at h0
    cases h0
    exact ⟨ns', hn', keepsAll_each (f := Own.link) (fun _ _ => Iff.rfl) h h1⟩
  | stringList l =>
    obtain ⟨ns0, h0, h1⟩ := hv
    rw [hn] at h0
    cases h0
    exact ⟨ns', hn', keepsAll_each (f := Own.string) (fun _ _ => Iff.rfl) h h1⟩
  | tagList l =>
    obtain ⟨ns0, h0, h1⟩ := hv
    rw [hn] at h0
    cases h0
    exact ⟨ns', hn', keepsAll_each (f := Own.tag) (fun _ _ => Iff.rfl) h h1⟩
  | person p => obtain ⟨es, h, -⟩ := hv; rw [hmap] at h; cases h
  | treeEntry p => obtain ⟨es, h, -⟩ := hv; rw [hmap] at h; cases h
  | tag p => obtain ⟨es, h, -⟩ := hv; rw [hmap] at h; cases h
  | tree t => exact hv.elim
  | commit c => exact hv.elim

theorem swap_rel {R : Option Node → Node → Prop} {S : Node → Node → Prop} {key : Bytes}
    (hR : ∀ v v', R (some v) v' → S v v') (hS : ∀ v, S v v) :
    ∀ {es es' : List (Bytes × Node)}, Swap R key es es' →
      es'.map Prod.fst = es.map Prod.fst ∧ ∀ k v', (k, v') ∈ es' → ∃ v, (k, v) ∈ es ∧ S v v'
  | [], [], _ => ⟨rfl, fun _ _ h => by cases h⟩
  | (k, v) :: r, (k', v') :: r', h => by
    obtain ⟨rfl, h1, h2⟩ := h
    obtain ⟨i1, i2⟩ := swap_rel hR hS h2
    refine ⟨by simp [i1], ?_⟩
    intro k v2 hm
    rcases List.mem_cons.1 hm with hm | hm
    · cases hm
      refine ⟨v, List.mem_cons_self, ?_⟩
      split at h1
      · exact hR _ _ h1
      · rw [h1]; exact hS _
    · obtain ⟨v3, h3, h4⟩ := i2 k v2 hm
      exact ⟨v3, List.mem_cons_of_mem _ h3, h4⟩
  | [], _ :: _, h => h.elim
  | _ :: _, [], h => h.elim

/-- The function gives back the node it gets and fails where there is none. -/
def GivesBack (fn : Change) : Prop := (∀ n, fn (some n) = .ok n) ∧ ∀ v, fn none ≠ .ok v

theorem edited_none {fn : Change} (hfn : GivesBack fn) {p : List Seg} {v : Node} :
    ¬ Edited fn p none v := by
  cases p with
  | nil => exact hfn.2 v
  | cons g p => exact id

theorem edited_keeps {fn : Change} (hfn : GivesBack fn) (p : List Seg) :
    ∀ n n', Edited fn p (some n) n' → Keeps n n' := by
  induction p with
  | nil =>
    intro n n' h
    have : n = n' := Res.ok.inj ((hfn.1 n).symm.trans h)
    subst this
    exact ⟨id, fun _ h => h⟩
  | cons g p ih =>
    rintro n n' (⟨es, es', h1, h2, rfl⟩ | ⟨ns, ns', i, h1, -, h2, rfl⟩)
    · unfold EditMap at h2
      split at h2
      · obtain ⟨k1, k2⟩ := swap_rel (S := Keeps) ih (fun _ => ⟨id, fun _ h => h⟩) h2
        exact means_map h1 rfl k1 k2
      · obtain ⟨v, h, -⟩ := h2
        exact absurd h (edited_none hfn)
    · rcases h2 with ⟨pre, v, post, v', rfl, -, h, rfl⟩ | ⟨-, v', h, -⟩
      · exact means_list h1 rfl (keepsAll_mid (ih v v' h) post pre)
      · exact absurd h (edited_none hfn)

theorem view_means (repr : Bool) (v : Own) (ht : ∀ t, v ≠ .tree t) (hc : ∀ c, v ≠ .commit c) :
    Means (viewOf repr v) v := by
  cases v with
  | tree t => exact absurd rfl (ht t)
  | commit c => exact absurd rfl (hc c)
  | person p => cases repr <;> exact own_person p
  | treeEntry e => cases repr <;> exact repr_treeEntry e
  | tag t =>
    cases repr
    · exact own_tag t
    · exact repr_tag t
  | linkList l => cases repr <;> exact own_linkList l
  | stringList l => cases repr <;> exact own_stringList l
  | tagList l =>
    cases repr
    · exact own_tagList l
    · exact repr_tagList l
  | blob b => cases repr <;> exact ⟨rfl, rfl⟩
  | string b => cases repr <;> exact ⟨rfl, rfl⟩
  | gpgSig b => cases repr <;> exact ⟨rfl, rfl⟩
  | link b => cases repr <;> exact ⟨rfl, rfl⟩
  | treeLink b => cases repr <;> exact ⟨rfl, rfl⟩
  | commitLink b => cases repr <;> exact ⟨rfl, rfl⟩

theorem sameType_refl (v : Own) : SameType v v := by cases v <;> trivial

theorem own_commit (c : Commit) : CommitNode (.own (.commit c)) c := by
  have hkeys : (Own.commit c).entries.map Prod.fst = [b!"tree", b!"parents", b!"message",
    b!"author", b!"committer", b!"encoding", b!"signature", b!"mergetag", b!"other"] := rfl
  have hin : ∀ k ∈ [b!"author", b!"committer", b!"encoding", b!"signature"],
      k ∈ (Own.commit c).entries.map Prod.fst := by
    rw [hkeys]; decide
  have hok : KeysOk [b!"tree", b!"parents", b!"message", b!"mergetag", b!"other"]
      [b!"author", b!"committer", b!"encoding", b!"signature"] (Own.commit c).entries := by
    unfold KeysOk
    rw [hkeys]
    decide
  refine ⟨_, rfl, hok, ?_, ?_, ?_,
    ⟨fun h => absurd (hin _ (by decide)) h, ?_⟩, ⟨fun h => absurd (hin _ (by decide)) h, ?_⟩,
    ⟨fun h => absurd (hin _ (by decide)) h, ?_⟩, ⟨fun h => absurd (hin _ (by decide)) h, ?_⟩,
    ?_, ?_⟩ <;>
  · intro v hv
    simp only [Own.entries, List.mem_cons, List.not_mem_nil, or_false, Prod.mk.injEq] at hv
    rcases hv with ⟨hk, rfl⟩ | ⟨hk, rfl⟩ | ⟨hk, rfl⟩ | ⟨hk, rfl⟩ | ⟨hk, rfl⟩ | ⟨hk, rfl⟩ |
      ⟨hk, rfl⟩ | ⟨hk, rfl⟩ | ⟨hk, rfl⟩ <;>
      first
      | exact absurd hk (by decide)
      | exact own_treeLink _
      | exact own_linkList _
      | exact own_string _
      | exact own_tagList _
      | exact own_stringList _
      | (cases h : c.author with
          | none => exact Or.inl ⟨rfl, rfl⟩
          | some a => exact Or.inr ⟨a, own_person a, rfl⟩)
      | (cases h : c.committer with
          | none => exact Or.inl ⟨rfl, rfl⟩
          | some a => exact Or.inr ⟨a, own_person a, rfl⟩)
      | (cases h : c.encoding with
          | none => exact Or.inl ⟨rfl, rfl⟩
          | some a => exact Or.inr ⟨a, own_string a, rfl⟩)
      | (cases h : c.signature with
          | none => exact Or.inl ⟨rfl, rfl⟩
          | some a => exact Or.inr ⟨a, own_gpgSig a, rfl⟩)

theorem commit_view (repr : Bool) (c : Commit) : CommitNode (viewOf repr (.commit c)) c := by
  cases repr
  · exact own_commit c
  · exact repr_commit c

/-- **An edit that changes nothing.** If the function gives back the node it gets, what
comes out is the value that went in, for values of all types but trees, and for trees
the same rows. -/
theorem transform_same (pol : TreeAsm → Nat) (repr : Bool) (v v' : Own) {fn : Change}
    (hfn : GivesBack fn) (g : Seg) (p : List Seg) (h : transform pol repr v fn (g :: p) = .ok v') :
    (∀ t, v = .tree t → ∃ t', v' = .tree t' ∧ t'.t = t.t) ∧ ((∀ t, v ≠ .tree t) → v' = v) := by
  cases v with
  | tree t =>
    refine ⟨?_, fun hc => absurd rfl (hc t)⟩
    rintro t0 ht0
    cases ht0
    have hv' : ∃ t', v' = .tree t' := by
      obtain ⟨t', -, h2⟩ := Res.bind_eq_ok.1 (show (editTree pol fn (viewOf repr (.tree t)) (g :: p)
        >>= fun t => Res.ok (Own.tree t)) = _ from h)
      exact ⟨t', (Res.ok.inj h2).symm⟩
    obtain ⟨t', rfl⟩ := hv'
    refine ⟨t', rfl, ?_⟩
    obtain ⟨n', h1, h2⟩ := (transform_tree pol repr t fn g p t'.t).1 ⟨t', h, rfl⟩
    obtain ⟨es, hes, hl, he⟩ := tree_iterator repr t
    rcases h1 with ⟨es0, es', i1, i2, rfl⟩ | ⟨ns, ns', i, i1, -⟩
    · rw [hes] at i1
      cases i1
      unfold EditMap at i2
      split at i2
      · have hrow : ∀ (rows : List Row) (es' : List (Bytes × Node)),
            Swap (Edited fn p) g.string
              (rows.map fun r => (r.1, viewOf repr (.treeEntry r.2))) es' → RowsOf es' rows := by
          intro rows
          induction rows with
          | nil =>
            intro es' h
            cases es' with
            | nil => exact ⟨rfl, trivial⟩
            | cons => exact h.elim
          | cons r rows ih =>
            intro es' h
            cases es' with
            | nil => exact h.elim
            | cons x es' =>
              obtain ⟨k, v⟩ := x
              obtain ⟨q1, q2, q3⟩ := h
              subst q1
              refine rowsOf_cons.2 ⟨r.2, rows, rfl, ?_, ih es' q3⟩
              have hm := view_means repr (.treeEntry r.2) (fun _ h => by cases h)
                (fun _ h => by cases h)
              split at q2
              · exact (edited_keeps hfn p _ _ q2).2 (.treeEntry r.2) hm
              · rw [q2]; exact hm
        have h3 : RowsNode (.map es') t.t := by
          obtain ⟨j1, j2⟩ := hrow t.t es' (by rw [← he]; exact i2)
          exact ⟨es', rfl, j1, j2⟩
        obtain ⟨t2, q1, q2⟩ := (transform_tree pol repr t fn g p t.t).2
          ⟨.map es', Or.inl ⟨es, es', hes, by unfold EditMap; rw [if_pos (by assumption)]; exact i2,
            rfl⟩, h3⟩
        rw [h] at q1
        cases q1
        exact q2
      · obtain ⟨v, h, -⟩ := i2
        exact absurd h (edited_none hfn)
    · rw [hl] at i1
      cases i1
  | commit c =>
    refine ⟨fun _ h => (by cases h), fun _ => ?_⟩
    obtain ⟨c', rfl, n', h1, h2, h3⟩ := (transform_commit pol repr c fn g p v').1 h
    obtain ⟨es, hes, k0, a1, a2, a3, a4, a5, a6, a7, a8, a9⟩ := commit_view repr c
    rcases h1 with ⟨es0, es', i1, i2, rfl⟩ | ⟨ns, ns', i, i1, -⟩
    · rw [hes] at i1
      cases i1
      unfold EditMap at i2
      split at i2
      · obtain ⟨hk, hm⟩ := swap_rel (S := Keeps) (edited_keeps hfn p) (fun _ => ⟨id, fun _ h => h⟩) i2
        have hat : ∀ {β : Type} (f : β → Own) (P : Node → β → Prop),
            (∀ n b, Means n (f b) ↔ P n b) →
            ∀ (k : Bytes) (b : β), At es k (P · b) → At es' k (P · b) := by
          intro β f P hf k b ha v' hv'
          obtain ⟨v, h1, h2⟩ := hm k v' hv'
          exact (hf v' b).1 (h2.2 _ ((hf v b).2 (ha v h1)))
        have hopt : ∀ {β : Type} (f : β → Own) (P : Node → β → Prop),
            (∀ n b, Means n (f b) ↔ P n b) →
            ∀ (k : Bytes) (o : Option β), OptAt es k P o → OptAt es' k P o := by
          intro β f P hf k o ⟨o1, o2⟩
          refine ⟨by rw [hk]; exact o1, ?_⟩
          intro v' hv'
          obtain ⟨v, h1, h2⟩ := hm k v' hv'
          rcases o2 v h1 with ⟨h4, h5⟩ | ⟨b, h4, h5⟩
          · exact Or.inl ⟨h2.1 h4, h5⟩
          · exact Or.inr ⟨b, (hf v' b).1 (h2.2 _ ((hf v b).2 h4)), h5⟩
        have hn : CommitNode (.map es') c := by
          refine ⟨es', rfl, ?_, hat Own.link _ (fun _ _ => Iff.rfl) _ _ a1,
            hat Own.linkList _ (fun _ _ => Iff.rfl) _ _ a2,
            hat Own.string _ (fun _ _ => Iff.rfl) _ _ a3,
            hopt Own.person _ (fun _ _ => Iff.rfl) _ _ a4,
            hopt Own.person _ (fun _ _ => Iff.rfl) _ _ a5,
            hopt Own.string _ (fun _ _ => Iff.rfl) _ _ a6,
            hopt Own.string _ (fun _ _ => Iff.rfl) _ _ a7,
            hat Own.tagList _ (fun _ _ => Iff.rfl) _ _ a8,
            hat Own.stringList _ (fun _ _ => Iff.rfl) _ _ a9⟩
          unfold KeysOk at k0 ⊢
          rw [hk]
          exact k0
        rw [commitNode_unique h2 hn]
      · obtain ⟨v, h, -⟩ := i2
        exact absurd h (edited_none hfn)
    · rw [commit_iterator] at i1
      cases i1
  | _ =>
    refine ⟨fun _ h => (by cases h), fun _ => ?_⟩
    obtain ⟨-, n', h1, -⟩ := (transform_value pol repr _ fn (g :: p) (fun _ h => by cases h)
      (fun _ h => by cases h) v').1 h
    have h2 := (transform_value pol repr _ fn (g :: p) (fun _ h => by cases h)
      (fun _ h => by cases h) _).2 ⟨sameType_refl _, n', h1, (edited_keeps hfn _ _ _ h1).2 _
        (view_means repr _ (fun _ h => by cases h) (fun _ h => by cases h))⟩
    rw [h] at h2
    exact Res.ok.inj h2

/-! ## Single fields -/

theorem swap_other {R : Option Node → Node → Prop} {key : Bytes} :
    ∀ (es : List (Bytes × Node)), key ∉ es.map Prod.fst → Swap R key es es
  | [], _ => trivial
  | (k, v) :: r, h => by
    have hne : k ≠ key := fun e => h (by simp [e])
    exact ⟨rfl, by rw [if_neg hne], swap_other r (fun hm => h (by simp [hm]))⟩

theorem editMap_mid {R : Option Node → Node → Prop} {key : Bytes} {v v' : Node}
    (pre post : List (Bytes × Node)) (h1 : key ∉ pre.map Prod.fst) (h2 : key ∉ post.map Prod.fst)
    (h : R (some v) v') :
    EditMap R key (pre ++ (key, v) :: post) (pre ++ (key, v') :: post) := by
  unfold EditMap
  rw [if_pos (by simp)]
  induction pre with
  | nil => exact ⟨rfl, by rw [if_pos rfl]; exact h, swap_other post h2⟩
  | cons x pre ih =>
    obtain ⟨k, w⟩ := x
    have hne : k ≠ key := fun e => h1 (by simp [e])
    exact ⟨rfl, by rw [if_neg hne], ih (fun hm => h1 (by simp [hm]))⟩

theorem editMap_keep {R : Option Node → Node → Prop} {key : Bytes}
    {es es' : List (Bytes × Node)} (h : EditMap R key es es') {k : Bytes} {v : Node}
    (hm : (k, v) ∈ es) (hk : k ≠ key) : (k, v) ∈ es' := by
  unfold EditMap at h
  split at h
  · rename_i hx
    clear hx
    induction es generalizing es' with
    | nil => cases hm
    | cons x es ih =>
      cases es' with
      | nil => exact h.elim
      | cons y es' =>
        obtain ⟨k1, v1⟩ := x
        obtain ⟨k2, v2⟩ := y
        obtain ⟨rfl, h1, h2⟩ := h
        rcases List.mem_cons.1 hm with hm | hm
        · cases hm
          rw [if_neg hk] at h1
          rw [h1]
          exact List.mem_cons_self
        · exact List.mem_cons_of_mem _ (ih hm h2)
  · obtain ⟨v', -, rfl⟩ := h
    exact List.mem_append_left _ hm

/-- **The message of a tag.** Every tag can be given another message, in both forms. -/
theorem transform_tag_message (pol : TreeAsm → Nat) (repr : Bool) (t : Tag) (fn : Change)
    (g : Seg) (hg : g.string = b!"message") (v : Node) (m : Bytes)
    (hv : fn (some (.own (.string t.message))) = .ok v) (hm : StrNode v m) :
    transform pol repr (.tag t) fn [g] = .ok (.tag { t with message := m }) := by
  rw [transform_value pol repr _ fn _ (fun _ h => by cases h) (fun _ h => by cases h)]
  refine ⟨trivial, ?_⟩
  obtain ⟨es, hes, hk, a1, a2, a3, a4, a5⟩ :=
    view_means repr (.tag t) (fun _ h => by cases h) (fun _ h => by cases h)
  obtain ⟨pre, he, hp⟩ : ∃ pre, es = pre ++ [(b!"message", .own (.string t.message))] ∧
      pre.map Prod.fst = [b!"object", b!"type", b!"tag", b!"tagger"] := by
    cases repr
    · cases hes
      exact ⟨_, (show (Own.tag t).entries = [_, _, _, _] ++ [_] from rfl), rfl⟩
    · cases hes
      exact ⟨_, (show (Own.tag t).reprEntries = [_, _, _, _] ++ [_] from rfl), rfl⟩
  subst he
  refine ⟨.map (pre ++ [(b!"message", v)]), Or.inl ⟨_, _, hes, ?_, rfl⟩, _, rfl, ?_, ?_⟩
  · rw [hg]
    exact editMap_mid pre [] (by rw [hp]; decide) (by simp) hv
  · unfold KeysOk at hk ⊢
    simpa using hk
  · have other : ∀ k (P : Node → Prop), k ≠ b!"message" →
        At (pre ++ [(b!"message", .own (.string t.message))]) k P →
        At (pre ++ [(b!"message", v)]) k P := by
      intro k P hne ha w hw
      rcases List.mem_append.1 hw with hw | hw
      · exact ha w (List.mem_append_left _ hw)
      · simp only [List.mem_singleton, Prod.mk.injEq] at hw
        exact absurd hw.1 hne
    refine ⟨other _ _ (by decide) a1, other _ _ (by decide) a2, other _ _ (by decide) a3,
      other _ _ (by decide) a4, ?_⟩
    intro w hw
    rcases List.mem_append.1 hw with hw | hw
    · have : b!"message" ∈ pre.map Prod.fst := List.mem_map_of_mem (f := Prod.fst) hw
      rw [hp] at this
      exact absurd this (by decide)
    · simp only [List.mem_singleton, Prod.mk.injEq] at hw
      rw [hw.2]
      exact hm

/-! ## Rows of a tree -/

theorem rowsOf_append {es1 es2 : List (Bytes × Node)} {r1 r2 : List Row} (h1 : RowsOf es1 r1)
    (h2 : RowsOf es2 r2) : RowsOf (es1 ++ es2) (r1 ++ r2) := by
  induction es1 generalizing r1 with
  | nil =>
    cases r1 with
    | nil => exact h2
    | cons => exact absurd h1.1 (by simp)
  | cons x es1 ih =>
    obtain ⟨k, v⟩ := x
    obtain ⟨e, rest, rfl, q1, q2⟩ := rowsOf_cons.1 h1
    exact rowsOf_cons.2 ⟨e, rest ++ r2, rfl, q1, ih q2⟩

theorem rowsOf_view (repr : Bool) (rows : List Row) :
    RowsOf (rows.map fun r => (r.1, viewOf repr (.treeEntry r.2))) rows := by
  induction rows with
  | nil => exact ⟨rfl, trivial⟩
  | cons r rows ih =>
    exact rowsOf_cons.2 ⟨r.2, rows, rfl,
      view_means repr (.treeEntry r.2) (fun _ h => by cases h) (fun _ h => by cases h), ih⟩

/-- **One row of a tree.** An edit below a name that one row has is the same edit of
that row; the other rows and the order stay as they are. -/
theorem transform_tree_row (pol : TreeAsm → Nat) (repr : Bool) (t : Tree) (fn : Change) (g : Seg)
    (p : List Seg) (pre post : List Row) (e e' : TreeEntry)
    (ht : t.t = pre ++ (g.string, e) :: post) (h1 : g.string ∉ pre.map Prod.fst)
    (h2 : g.string ∉ post.map Prod.fst)
    (h : transform pol repr (.treeEntry e) fn p = .ok (.treeEntry e')) :
    ∃ t', transform pol repr (.tree t) fn (g :: p) = .ok (.tree t') ∧
      t'.t = pre ++ (g.string, e') :: post ∧ ∀ k, mapGet t'.m k = lastFor t'.t k := by
  obtain ⟨-, n', q1, q2⟩ := (transform_value pol repr (.treeEntry e) fn p (fun _ h => by cases h)
    (fun _ h => by cases h) _).1 h
  obtain ⟨es, hes, -, he⟩ := tree_iterator repr t
  rw [ht, List.map_append, List.map_cons] at he
  obtain ⟨t', q3, q4⟩ := (transform_tree pol repr t fn g p (pre ++ (g.string, e') :: post)).2
    ⟨_, Or.inl ⟨es, _, hes, by
      rw [he]
      exact editMap_mid _ _ (by simpa [Function.comp_def] using h1)
        (by simpa [Function.comp_def] using h2) q1, rfl⟩,
      _, rfl, rowsOf_append (rowsOf_view repr pre) (rowsOf_cons.2
        ⟨e', post, rfl, q2, rowsOf_view repr post⟩)⟩
  exact ⟨t', q3, q4, transform_tree_lookup pol repr t t' fn g p q3⟩

/-- **A new row of a tree.** A name that the tree does not have comes last, wherever it
belongs in the order of names. -/
theorem transform_tree_new (pol : TreeAsm → Nat) (repr : Bool) (t : Tree) (fn : Change) (g : Seg)
    (h : g.string ∉ t.t.map Prod.fst) (v : Node) (e : TreeEntry) (hv : fn none = .ok v)
    (he : TreeEntryNode v e) :
    ∃ t', transform pol repr (.tree t) fn [g] = .ok (.tree t') ∧
      t'.t = t.t ++ [(g.string, e)] ∧ ∀ k, mapGet t'.m k = lastFor t'.t k := by
  obtain ⟨es, hes, -, hE⟩ := tree_iterator repr t
  obtain ⟨t', q3, q4⟩ := (transform_tree pol repr t fn g [] (t.t ++ [(g.string, e)])).2
    ⟨_, Or.inl ⟨es, es ++ [(g.string, v)], hes, by
      unfold EditMap
      rw [if_neg (by rw [hE]; simpa [Function.comp_def] using h)]
      exact ⟨v, hv, rfl⟩, rfl⟩, _, rfl, by
        rw [hE]
        exact rowsOf_append (rowsOf_view repr t.t)
          (rowsOf_cons.2 ⟨e, [], rfl, he, rfl, trivial⟩)⟩
  exact ⟨t', q3, q4, transform_tree_lookup pol repr t t' fn g [] q3⟩

/-- A path that goes on below a name that the tree does not have is refused. -/
theorem transform_tree_missing (pol : TreeAsm → Nat) (repr : Bool) (t : Tree) (fn : Change)
    (g s : Seg) (p : List Seg) (h : g.string ∉ t.t.map Prod.fst) (t' : Tree) :
    transform pol repr (.tree t) fn (g :: s :: p) ≠ .ok (.tree t') := by
  intro hx
  obtain ⟨es, hes, hl, hE⟩ := tree_iterator repr t
  obtain ⟨n', ⟨es0, es', h1, h2, -⟩ | ⟨ns, -, -, h1, -⟩, -⟩ :=
    (transform_tree pol repr t fn g (s :: p) t'.t).1 ⟨t', hx, rfl⟩
  · rw [hes] at h1
    cases h1
    unfold EditMap at h2
    rw [if_neg (by rw [hE]; simpa [Function.comp_def] using h)] at h2
    obtain ⟨v, h3, -⟩ := h2
    exact h3
  · rw [hl] at h1
    cases h1

/-! ## Commits -/

theorem commit_edited {pol : TreeAsm → Nat} {repr : Bool} {c : Commit} {fn : Change} {g : Seg}
    {p : List Seg} {v' : Own} (h : transform pol repr (.commit c) fn (g :: p) = .ok v')
    {es : List (Bytes × Node)} (hes : (viewOf repr (.commit c)).mapIterator = some es)
    {k : Bytes} {v : Node} (hm : (k, v) ∈ es) (hk : k ≠ g.string) :
    v ≠ .absent ∧ ((k = b!"author" ∨ k = b!"committer") → ∃ q, v = .own (.person q)) := by
  obtain ⟨c', -, n', h1, -, h3⟩ := (transform_commit pol repr c fn g p v').1 h
  rcases h1 with ⟨es0, es', i1, i2, rfl⟩ | ⟨ns, ns', i, i1, -⟩
  · rw [hes] at i1
    cases i1
    have hm' := editMap_keep i2 hm hk
    obtain ⟨x1, x2⟩ := h3 es' rfl
    refine ⟨x1 k v hm', fun hk2 => ?_⟩
    rcases x2 k v hk2 hm' with h | ⟨g', s', r', h, h'⟩
    · exact h
    · cases h
      exact absurd h'.symm hk
  · rw [commit_iterator] at i1
    cases i1

/-- **Commits with a missing field.** A typed commit without author, committer, encoding
or signature cannot be edited anywhere but in the one field that is missing. -/
theorem transform_commit_missing (pol : TreeAsm → Nat) (c : Commit) (fn : Change) (g : Seg)
    (p : List Seg) (v' : Own)
    (h : (c.author = none ∧ g.string ≠ b!"author") ∨
      (c.committer = none ∧ g.string ≠ b!"committer") ∨
      (c.encoding = none ∧ g.string ≠ b!"encoding") ∨
      (c.signature = none ∧ g.string ≠ b!"signature")) :
    transform pol false (.commit c) fn (g :: p) ≠ .ok v' := by
  intro hx
  have key : ∀ k, (k, Node.absent) ∈ (Own.commit c).entries → g.string ≠ k → False :=
    fun k hm hk => (commit_edited hx (es := (Own.commit c).entries) rfl hm (Ne.symm hk)).1 rfl
  rcases h with ⟨h, hk⟩ | ⟨h, hk⟩ | ⟨h, hk⟩ | ⟨h, hk⟩ <;>
    exact key _ (by simp [Own.entries, h, optNode]) hk

/-- **The representation of a commit.** That of a commit with author and committer
cannot be edited anywhere. -/
theorem transform_commit_repr (pol : TreeAsm → Nat) (c : Commit) (fn : Change) (g : Seg)
    (p : List Seg) (v' : Own) (ha : c.author ≠ none) (hc : c.committer ≠ none) :
    transform pol true (.commit c) fn (g :: p) ≠ .ok v' := by
  intro hx
  obtain ⟨a, ha⟩ := Option.ne_none_iff_exists'.1 ha
  obtain ⟨b, hc⟩ := Option.ne_none_iff_exists'.1 hc
  have key : ∀ k q, (k = b!"author" ∨ k = b!"committer") →
      (k, Node.repr (.person q)) ∈ (Own.commit c).reprEntries → k ≠ g.string → False := by
    intro k q hk2 hm hk
    obtain ⟨q', h⟩ := (commit_edited hx (es := (Own.commit c).reprEntries) rfl hm hk).2 hk2
    cases h
  by_cases hg : b!"author" = g.string
  · exact key b!"committer" b (.inr rfl) (commit_reprEntries.2 (by simp [hc]))
      (by rw [← hg]; decide)
  · exact key b!"author" a (.inl rfl) (commit_reprEntries.2 (by simp [ha])) hg

/-- It panics, if the path does not begin with a field before the author's or with the
author's. -/
theorem transform_commit_repr_panics (pol : TreeAsm → Nat) (c : Commit) (fn : Change) (g : Seg)
    (p : List Seg) (ha : c.author ≠ none)
    (hg : g.string ∉ [b!"tree", b!"parents", b!"message", b!"author"]) :
    transform pol true (.commit c) fn (g :: p) = .panic := by
  have hl := (assignLinkList_ok _ _).2 (repr_linkList c.parents)
  rcases c with ⟨tr, pa, me, au, co, en, si, mt, ot⟩
  cases au with
  | none => exact absurd rfl ha
  | some a =>
    simp only [List.mem_cons, List.not_mem_nil, or_false, not_or] at hg
    obtain ⟨g1, g2, g3, g4⟩ := hg
    have hrun : editCommit fn (some (.repr (.commit ⟨tr, pa, me, some a, co, en, si, mt, ot⟩)))
        (g :: p) = commitStruct.runEdit (commitEnter fn p) g.string
          (Own.commit ⟨tr, pa, me, some a, co, en, si, mt, ot⟩).reprEntries false .zero 0 :=
      commitStruct.editEntries_run (commitEnter fn p) g.string _ false
        { w := some .zero, m := .midvalue, state := .initial, s := 0, f := 0, cm := .absent }
        .zero rfl (Or.inl ⟨rfl, rfl⟩)
    have step : ∀ (k : Bytes) (v : Node) (r : List (Bytes × Node)) (w : Commit) (s i : Nat)
        (f : Field Commit), k ≠ g.string → commitStruct.find k = some i →
        ¬ s &&& (1 <<< i) ≠ 0 → commitStruct.fields[i]? = some f →
        commitStruct.runEdit (commitEnter fn p) g.string ((k, v) :: r) false w s =
          (f.assign w v >>= fun w => commitStruct.runEdit (commitEnter fn p) g.string r false w
            (s + (1 <<< i))) := by
      intro k v r w s i f hk h1 h2 h3
      conv => lhs; unfold Struct.runEdit
      rw [h1]
      dsimp only
      rw [if_neg h2, if_neg hk, h3]
    show (editCommit fn (some (.repr (.commit _))) (g :: p) >>= _) = _
    rw [hrun]
    rw [show (Own.commit ⟨tr, pa, me, some a, co, en, si, mt, ot⟩).reprEntries =
      (b!"tree", Node.own (.treeLink tr)) :: (b!"parents", .repr (.linkList pa)) ::
      (b!"message", .own (.string me)) :: (b!"author", .repr (.person a)) :: _ from rfl]
    rw [step _ _ _ _ _ 0 _ (Ne.symm g1) rfl (by decide) rfl]
    show (commitStruct.runEdit _ _ _ _ _ _ >>= _) = _
    rw [step _ _ _ _ _ 1 _ (Ne.symm g2) rfl (by decide) rfl]
    show (((assignLinkList [] (.repr (.linkList pa)) >>= _) >>= _) >>= _) = _
    rw [hl]
    show (commitStruct.runEdit _ _ _ _ _ _ >>= _) = _
    rw [step _ _ _ _ _ 2 _ (Ne.symm g3) rfl (by decide) rfl]
    show (commitStruct.runEdit _ _ _ _ _ _ >>= _) = _
    rw [step _ _ _ _ _ 3 _ (Ne.symm g4) rfl (by decide) rfl]
    rfl

/-- **The message of a commit** that has all its optional fields can be edited. -/
theorem transform_commit_message (pol : TreeAsm → Nat) (c : Commit) (fn : Change) (g : Seg)
    (hg : g.string = b!"message") (v : Node) (m : Bytes)
    (hv : fn (some (.own (.string c.message))) = .ok v) (hm : StrNode v m)
    (h1 : c.author ≠ none) (h2 : c.committer ≠ none) (h3 : c.encoding ≠ none)
    (h4 : c.signature ≠ none) :
    transform pol false (.commit c) fn [g] = .ok (.commit { c with message := m }) := by
  obtain ⟨a, h1⟩ := Option.ne_none_iff_exists'.1 h1
  obtain ⟨b, h2⟩ := Option.ne_none_iff_exists'.1 h2
  obtain ⟨e, h3⟩ := Option.ne_none_iff_exists'.1 h3
  obtain ⟨s, h4⟩ := Option.ne_none_iff_exists'.1 h4
  rw [transform_commit]
  refine ⟨_, rfl, ?_⟩
  obtain ⟨es, hes, hk, a1, a2, a3, a4, a5, a6, a7, a8, a9⟩ := own_commit c
  obtain ⟨pre, post, he, hp, hq⟩ : ∃ pre post,
      es = pre ++ (b!"message", .own (.string c.message)) :: post ∧
      b!"message" ∉ pre.map Prod.fst ∧ b!"message" ∉ post.map Prod.fst := by
    cases hes
    refine ⟨_, _, (show (Own.commit c).entries = [_, _] ++ _ :: [_, _, _, _, _, _] from rfl), ?_, ?_⟩
    · show b!"message" ∉ [b!"tree", b!"parents"]
      decide
    · show b!"message" ∉ [b!"author", b!"committer", b!"encoding", b!"signature", b!"mergetag",
        b!"other"]
      decide
  have hes' : es = (Own.commit c).entries := by cases hes; rfl
  have hab : ∀ k v, (k, v) ∈ es → v ≠ .absent := by
    rw [hes']
    intro k v hv
    simp only [Own.entries, h1, h2, h3, h4, optNode, List.mem_cons, List.not_mem_nil, or_false,
      Prod.mk.injEq] at hv
    rcases hv with ⟨-, rfl⟩ | ⟨-, rfl⟩ | ⟨-, rfl⟩ | ⟨-, rfl⟩ | ⟨-, rfl⟩ | ⟨-, rfl⟩ | ⟨-, rfl⟩ |
      ⟨-, rfl⟩ | ⟨-, rfl⟩ <;> exact fun h => by cases h
  have hper : ∀ k v, (k = b!"author" ∨ k = b!"committer") → (k, v) ∈ es →
      ∃ q, v = .own (.person q) := by
    rw [hes']
    intro k v hk hv
    simp only [Own.entries, h1, h2, h3, h4, optNode, List.mem_cons, List.not_mem_nil, or_false,
      Prod.mk.injEq] at hv
    rcases hv with ⟨rfl, rfl⟩ | ⟨rfl, rfl⟩ | ⟨rfl, rfl⟩ | ⟨rfl, rfl⟩ | ⟨rfl, rfl⟩ | ⟨rfl, rfl⟩ |
      ⟨rfl, rfl⟩ | ⟨rfl, rfl⟩ | ⟨rfl, rfl⟩ <;>
      first | exact ⟨_, rfl⟩ | exact absurd hk (by decide)
  clear hes'
  subst he
  have mem : ∀ k w, (k, w) ∈ pre ++ (b!"message", v) :: post →
      (k = b!"message" ∧ w = v) ∨
      (k ≠ b!"message" ∧ (k, w) ∈ pre ++ (b!"message", .own (.string c.message)) :: post) := by
    intro k w hw
    rcases List.mem_append.1 hw with hw | hw
    · refine .inr ⟨fun e => hp (e ▸ List.mem_map_of_mem (f := Prod.fst) hw),
        List.mem_append_left _ hw⟩
    · rcases List.mem_cons.1 hw with hw | hw
      · cases hw
        exact .inl ⟨rfl, rfl⟩
      · exact .inr ⟨fun e => hq (e ▸ List.mem_map_of_mem (f := Prod.fst) hw),
          List.mem_append_right _ (List.mem_cons_of_mem _ hw)⟩
  have other : ∀ k (P : Node → Prop), k ≠ b!"message" →
      At (pre ++ (b!"message", .own (.string c.message)) :: post) k P →
      At (pre ++ (b!"message", v) :: post) k P := by
    intro k P hne ha w hw
    rcases mem k w hw with ⟨h, -⟩ | ⟨-, h⟩
    · exact absurd h hne
    · exact ha w h
  have keys : (pre ++ (b!"message", v) :: post).map Prod.fst =
      (pre ++ (b!"message", Node.own (.string c.message)) :: post).map Prod.fst := by simp
  refine ⟨.map (pre ++ (b!"message", v) :: post), Or.inl ⟨_, _, hes, ?_, rfl⟩,
    ⟨_, rfl, ?_, other _ _ (by decide) a1, other _ _ (by decide) a2, ?_,
      ⟨by rw [keys]; exact a4.1, other _ _ (by decide) a4.2⟩,
      ⟨by rw [keys]; exact a5.1, other _ _ (by decide) a5.2⟩,
      ⟨by rw [keys]; exact a6.1, other _ _ (by decide) a6.2⟩,
      ⟨by rw [keys]; exact a7.1, other _ _ (by decide) a7.2⟩,
      other _ _ (by decide) a8, other _ _ (by decide) a9⟩, ?_⟩
  · rw [hg]
    exact editMap_mid pre post hp hq hv
  · unfold KeysOk at hk ⊢
    rw [keys]
    exact hk
  · intro w hw
    rcases mem _ w hw with ⟨-, h⟩ | ⟨h, -⟩
    · rw [h]; exact hm
    · exact absurd rfl h
  · intro es0 h0
    cases h0
    refine ⟨fun k w hw => ?_, fun k w hk2 hw => ?_⟩
    · rcases mem k w hw with ⟨-, h⟩ | ⟨-, h⟩
      · rw [h]
        rintro rfl
        cases hm.1
      · exact hab k w h
    · rcases mem k w hw with ⟨h, -⟩ | ⟨-, h⟩
      · rw [h] at hk2
        exact absurd hk2 (by decide)
      · exact .inl (hper k w hk2 h)

/-! ## Cases that meet the hypotheses -/

namespace TransformExample

def l1 : Link := gitLink (List.replicate 20 1)
def ada : PersonInfo := ⟨b!"Ada", b!"a@b", b!"1", b!"+0000"⟩
def tag : Tag := ⟨l1, b!"commit", b!"v1", ada, b!"old"⟩
def full : Commit :=
  ⟨l1, [], b!"old", some ada, some ada, some b!"UTF-8", some b!"sig", [], []⟩
def usual : Commit := { full with encoding := none, signature := none }
def tree : Tree := ⟨[], [(b!"b", ⟨b!"100644", l1⟩)]⟩
def rowsGot : Res Own → Option (List Row)
  | .ok (.tree t) => some t.t
  | _ => none
def put (n : Node) : Change := fun _ => .ok n
def same : Change := fun n => match n with | some n => .ok n | none => .err .notExists

example : GivesBack same := ⟨fun _ => rfl, fun _ h => by cases h⟩
example : transform (fun _ => 0) false (.tag tag) same [.ofString b!"tagger", .ofString b!"name"] =
    .ok (.tag tag) := by decide +kernel
example : transform (fun _ => 0) true (.tag tag) (put (.str b!"new")) [.ofString b!"message"] =
    .ok (.tag { tag with message := b!"new" }) := by decide +kernel
example : transform (fun _ => 0) false (.tag tag) (put (.str b!"Bob"))
    [.ofString b!"tagger", .ofString b!"name"] =
    .ok (.tag { tag with tagger := { ada with name := b!"Bob" } }) := by decide +kernel
-- A row before the ones there are: it comes last, which git refuses.
example : rowsGot (transform (fun _ => 0) false (.tree tree)
    (put (.map [(b!"mode", .str b!"100644"), (b!"hash", .link l1)])) [.ofString b!"a"]) =
      some [(b!"b", ⟨b!"100644", l1⟩), (b!"a", ⟨b!"100644", l1⟩)] := by decide +kernel
example : rowsGot (transform (fun _ => 0) true (.tree tree) (put (.str b!"100755"))
    [.ofString b!"b", .ofString b!"mode"]) = some [(b!"b", ⟨b!"100755", l1⟩)] := by decide +kernel
example : transform (fun _ => 0) false (.commit full) (put (.str b!"new"))
    [.ofString b!"message"] = .ok (.commit { full with message := b!"new" }) := by decide +kernel
example : transform (fun _ => 0) false (.commit full) (put (.str b!"Bob"))
    [.ofString b!"author", .ofString b!"name"] =
    .ok (.commit { full with author := some { ada with name := b!"Bob" } }) := by decide +kernel
-- The usual commit has neither encoding nor signature.
example : transform (fun _ => 0) false (.commit usual) (put (.str b!"new"))
    [.ofString b!"message"] = .err .wrongKind := by decide +kernel
example : transform (fun _ => 0) true (.commit usual) (put (.str b!"new"))
    [.ofString b!"message"] = .panic := by decide +kernel
example : transform (fun _ => 0) true (.commit usual) (put (.str b!"Bob"))
    [.ofString b!"author", .ofString b!"name"] = .panic := by decide +kernel
example : transform (fun _ => 0) true
    (.commit { usual with committer := none }) (put (.str b!"Bob"))
    [.ofString b!"author", .ofString b!"name"] =
    .ok (.commit { usual with committer := none, author := some { ada with name := b!"Bob" } }) := by
  decide +kernel

end TransformExample

end Verif.Props
