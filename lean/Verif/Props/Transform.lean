import Verif.Proofs.Transform
import Verif.Props.TreeFeed

/-!
# Editing an object with `traversal.FocusedTransform` (C104)
-/

namespace Verif.Props

open Verif Spec

/-! ## One field -/

theorem field_lift {α W : Type} {X : Res α} {E : Node → Prop} {Y : Node → Res α}
    (h : ∀ a, X = .ok a ↔ ∃ v', E v' ∧ Y v' = .ok a) (g : α → W) (w' : W) :
    (X >>= fun a => Res.ok (g a)) = .ok w' ↔
      ∃ v', E v' ∧ (Y v' >>= fun a => Res.ok (g a)) = .ok w' := by
  constructor
  · intro hx
    obtain ⟨a, h1, h2⟩ := Res.bind_eq_ok.1 hx
    obtain ⟨v', h3, h4⟩ := (h a).1 h1
    exact ⟨v', h3, by rw [h4]; exact h2⟩
  · rintro ⟨v', h3, hx⟩
    obtain ⟨a, h1, h2⟩ := Res.bind_eq_ok.1 hx
    rw [(h a).2 ⟨v', h3, h1⟩]
    exact h2

theorem once_lift {α : Type} {X : Res α} {E : Node → Prop} {Y : Node → Res α}
    (h : ∀ a, X = .ok a ↔ ∃ v', E v' ∧ Y v' = .ok a) (old : Option α) (x : Option α) :
    assignOnce old X = .ok x ↔ ∃ v', E v' ∧ assignOnce old (Y v') = .ok x := by
  cases old with
  | some o =>
    constructor
    · intro h; cases h
    · rintro ⟨v', -, h⟩
      cases h
  | none => exact field_lift h some x

theorem leaf_string (fn : Change) (n : Option Node) (p : List Seg) (a : Bytes) :
    leafEdit assignString fn n p = .ok a ↔ ∃ v', Edited fn p n v' ∧ assignString v' = .ok a :=
  leafEdit_ok _ fn (fun _ _ h => by cases h) (fun _ _ h => by cases h) n p a

theorem leaf_gpgSig (fn : Change) (n : Option Node) (p : List Seg) (a : Bytes) :
    leafEdit assignGpgSig fn n p = .ok a ↔ ∃ v', Edited fn p n v' ∧ assignGpgSig v' = .ok a :=
  leafEdit_ok _ fn (fun _ _ h => by cases h) (fun _ _ h => by cases h) n p a

theorem leaf_link (fn : Change) (n : Option Node) (p : List Seg) (a : Link) :
    leafEdit assignLink fn n p = .ok a ↔ ∃ v', Edited fn p n v' ∧ assignLink v' = .ok a :=
  leafEdit_ok _ fn (fun _ _ h => by cases h) (fun _ _ h => by cases h) n p a

theorem leaf_treeLink (fn : Change) (n : Option Node) (p : List Seg) (a : Link) :
    leafEdit assignTreeLink fn n p = .ok a ↔ ∃ v', Edited fn p n v' ∧ assignTreeLink v' = .ok a :=
  leafEdit_ok _ fn (fun _ _ h => by cases h) (fun _ _ h => by cases h) n p a

theorem leaf_commitLink (fn : Change) (n : Option Node) (p : List Seg) (a : Link) :
    leafEdit assignCommitLink fn n p = .ok a ↔
      ∃ v', Edited fn p n v' ∧ assignCommitLink v' = .ok a :=
  leafEdit_ok _ fn (fun _ _ h => by cases h) (fun _ _ h => by cases h) n p a

/-! ## Persons, tree entries, tags -/

theorem person_enters (fn : Change) (p : List Seg) (k : Bytes) :
    personStruct.Enters (personEnter fn p) k (Edited fn p) (fun _ => True) where
  here := by
    intro i f hi _ w _ n w'
    match i with
    | 0 => cases hi; exact field_lift (leaf_string fn n p) (fun x => { w with date := x }) w'
    | 1 => cases hi; exact field_lift (leaf_string fn n p) (fun x => { w with timezone := x }) w'
    | 2 => cases hi; exact field_lift (leaf_string fn n p) (fun x => { w with email := x }) w'
    | 3 => cases hi; exact field_lift (leaf_string fn n p) (fun x => { w with name := x }) w'
    | _ + 4 => cases hi
  keep := fun _ _ _ _ _ _ _ _ => trivial

theorem person_edit (fn : Change) (w : PersonInfo) (n : Option Node) (p : List Seg)
    (q : PersonInfo) :
    editPerson fn (some w) n p = .ok q ↔
      ∃ v', Edited fn p n v' ∧ personStruct.child (some w) v' = .ok q :=
  personStruct.edit_ok .zero fn (personEnter fn) w (fun _ => rfl) (fun _ => rfl)
    (fun _ _ => True) (fun _ => trivial) (person_enters fn) n p q

theorem treeEntry_enters (fn : Change) (p : List Seg) (k : Bytes) :
    treeEntryStruct.Enters (treeEntryEnter fn p) k (Edited fn p) (fun _ => True) where
  here := by
    intro i f hi _ w _ n w'
    match i with
    | 0 => cases hi; exact field_lift (leaf_string fn n p) (fun x => { w with mode := x }) w'
    | 1 => cases hi; exact field_lift (leaf_link fn n p) (fun x => { w with hash := x }) w'
    | _ + 2 => cases hi
  keep := fun _ _ _ _ _ _ _ _ => trivial

theorem treeEntry_edit (fn : Change) (n : Option Node) (p : List Seg) (e : TreeEntry) :
    editTreeEntry fn n p = .ok e ↔ ∃ v', Edited fn p n v' ∧ TreeEntryNode v' e := by
  unfold editTreeEntry
  rw [treeEntryStruct.edit_ok _ fn (treeEntryEnter fn) _ (fun _ => rfl) (fun _ => rfl)
    (fun _ _ => True) (fun _ => trivial) (treeEntry_enters fn) n p e]
  simp only [treeEntry_child_iff]

theorem tag_enters (fn : Change) (p : List Seg) (k : Bytes) :
    tagStruct.Enters (tagEnter fn p) k (Edited fn p) (fun _ => True) where
  here := by
    intro i f hi _ w _ n w'
    match i with
    | 0 => cases hi; exact field_lift (leaf_link fn n p) (fun x => { w with object := x }) w'
    | 1 => cases hi; exact field_lift (leaf_string fn n p) (fun x => { w with typ := x }) w'
    | 2 => cases hi; exact field_lift (leaf_string fn n p) (fun x => { w with tag := x }) w'
    | 3 =>
      cases hi
      exact field_lift (person_edit fn w.tagger n p) (fun x => { w with tagger := x }) w'
    | 4 => cases hi; exact field_lift (leaf_string fn n p) (fun x => { w with message := x }) w'
    | _ + 5 => cases hi
  keep := fun _ _ _ _ _ _ _ _ => trivial

theorem tag_edit (fn : Change) (n : Option Node) (p : List Seg) (t : Tag) :
    editTag fn n p = .ok t ↔ ∃ v', Edited fn p n v' ∧ buildTag v' = .ok t :=
  tagStruct.edit_ok .zero fn (tagEnter fn) .zero (fun _ => rfl) (fun _ => rfl)
    (fun _ _ => True) (fun _ => trivial) (tag_enters fn) n p t

/-! ## Lists -/

theorem linkList_edit (fn : Change) (n : Option Node) (p : List Seg) (l : List Link) :
    editLinkList fn [] n p = .ok l ↔ ∃ v', Edited fn p n v' ∧ assignLinkList [] v' = .ok l :=
  editList_ok _ _ (fun _ => rfl) (fun _ => rfl) _ fn (fun p n a => leaf_commitLink fn n p a) n p l

theorem stringList_edit (fn : Change) (n : Option Node) (p : List Seg) (l : List Bytes) :
    editStringList fn [] n p = .ok l ↔ ∃ v', Edited fn p n v' ∧ assignStringList [] v' = .ok l :=
  editList_ok _ _ (fun _ => rfl) (fun _ => rfl) _ fn (fun p n a => leaf_string fn n p a) n p l

theorem tagList_edit (fn : Change) (n : Option Node) (p : List Seg) (l : List Tag) :
    editTagList fn [] n p = .ok l ↔ ∃ v', Edited fn p n v' ∧ assignTagList [] v' = .ok l :=
  editList_ok _ _ (fun _ => rfl) (fun _ => rfl) _ fn (fun p n a => tag_edit fn n p a) n p l

/-- The node that `FocusedTransform` is given. -/
def viewOf (repr : Bool) (v : Own) : Node := if repr then v.representation else .own v

theorem blob_assign (n : Node) (b : Bytes) :
    assignBlob n = .ok b ↔ n.kind = .bytes ∧ n.asBytes = .ok b := by
  cases n with
  | own v => cases v <;> simp [assignBlob, Node.isNull, Node.asBytes, Node.kind, Own.kind]
  | repr v => cases v <;> simp [assignBlob, Node.isNull, Node.asBytes, Node.kind, Own.kind]
  | _ => simp [assignBlob, Node.isNull, Node.asBytes, Node.kind]

theorem wrap_ok {α : Type} {X : Res α} {g : α → Own} (hg : ∀ a b, g a = g b → a = b)
    {E : Node → Prop} {Y : Node → α → Prop}
    (h : ∀ a, X = .ok a ↔ ∃ v', E v' ∧ Y v' a) {v' : Own} :
    (X >>= fun a => Res.ok (g a)) = .ok v' ↔ ∃ a, v' = g a ∧ ∃ n', E n' ∧ Y n' a := by
  constructor
  · intro hx
    obtain ⟨a, h1, h2⟩ := Res.bind_eq_ok.1 hx
    exact ⟨a, (Res.ok.inj h2).symm, (h a).1 h1⟩
  · rintro ⟨a, rfl, h1⟩
    rw [(h a).2 h1]
    rfl

/-- **Editing persons, tree entries, tags, lists and scalars.** `FocusedTransform`
along any path gives exactly the value that the edited data denotes: the same data with
another node at the end of the path. It fails when the edited data is not of the type,
and when there is no such place. -/
theorem transform_value (pol : TreeAsm → Nat) (repr : Bool) (v : Own) (fn : Change)
    (path : List Seg) (ht : ∀ t, v ≠ .tree t) (hc : ∀ c, v ≠ .commit c) (v' : Own) :
    transform pol repr v fn path = .ok v' ↔
      SameType v v' ∧ ∃ n', Edited fn path (some (viewOf repr v)) n' ∧ Means n' v' := by
  have fin : ∀ {α : Type} {X : Res α} {g : α → Own} {Y : Node → α → Prop},
      (∀ a b, g a = g b → a = b) →
      (∀ a, X = .ok a ↔ ∃ n', Edited fn path (some (viewOf repr v)) n' ∧ Y n' a) →
      (∀ a n, Means n (g a) ↔ Y n a) → (∀ v', SameType v v' ↔ ∃ a, v' = g a) →
      ((X >>= fun a => Res.ok (g a)) = .ok v' ↔
        SameType v v' ∧ ∃ n', Edited fn path (some (viewOf repr v)) n' ∧ Means n' v') := by
    intro α X g Y hg h hY hs
    rw [wrap_ok hg h, hs]
    constructor
    · rintro ⟨a, rfl, n', h1, h2⟩
      exact ⟨⟨a, rfl⟩, n', h1, (hY a n').2 h2⟩
    · rintro ⟨⟨a, rfl⟩, n', h1, h2⟩
      exact ⟨a, rfl, n', h1, (hY a n').1 h2⟩
  have leaf : ∀ {α : Type} (assign : Node → Res α) (g : α → Own) (Y : Node → α → Prop),
      (∀ a b, g a = g b → a = b) → (∀ n a, assign n = .ok a ↔ Y n a) →
      (∀ es a, assign (.map es) ≠ .ok a) → (∀ es a, assign (.list es) ≠ .ok a) →
      (∀ a n, Means n (g a) ↔ Y n a) → (∀ v', SameType v v' ↔ ∃ a, v' = g a) →
      (leafEdit (fun n => assign n >>= fun a => Res.ok (g a)) fn (some (viewOf repr v)) path =
          .ok v' ↔
        SameType v v' ∧ ∃ n', Edited fn path (some (viewOf repr v)) n' ∧ Means n' v') := by
    intro α assign g Y hg hY hm hl hM hs
    have hfin := fin (X := leafEdit assign fn (some (viewOf repr v)) path) (g := g) (Y := Y) hg
      (fun a => by rw [leafEdit_ok assign fn hm hl]; simp only [hY]) hM hs
    rw [← hfin]
    refine iff_of_eq (congrArg (· = Res.ok v') ?_)
    cases path with
    | cons => rfl
    | nil =>
      show (fn _ >>= fun n => _) = ((fn _ >>= fun n => assign n) >>= _)
      cases fn (some (viewOf repr v)) <;> rfl
  cases v with
  | tree t => exact absurd rfl (ht t)
  | commit c => exact absurd rfl (hc c)
  | blob b =>
    exact leaf assignBlob .blob (fun n a => n.kind = .bytes ∧ n.asBytes = .ok a)
      (fun _ _ h => by cases h; rfl) blob_assign (fun _ _ h => by cases h)
      (fun _ _ h => by cases h) (fun _ _ => Iff.rfl) (fun v' => by cases v' <;> simp [SameType])
  | string b =>
    exact leaf assignString .string StrNode (fun _ _ h => by cases h; rfl)
      (fun _ _ => assignString_ok) (fun _ _ h => by cases h) (fun _ _ h => by cases h)
      (fun _ _ => Iff.rfl) (fun v' => by cases v' <;> simp [SameType])
  | gpgSig b =>
    exact leaf assignGpgSig .gpgSig StrNode (fun _ _ h => by cases h; rfl)
      (fun _ _ => assignGpgSig_ok) (fun _ _ h => by cases h) (fun _ _ h => by cases h)
      (fun _ _ => Iff.rfl) (fun v' => by cases v' <;> simp [SameType])
  | link b =>
    exact leaf assignLink .link LinkNode (fun _ _ h => by cases h; rfl)
      (fun _ _ => assignLink_ok) (fun _ _ h => by cases h) (fun _ _ h => by cases h)
      (fun _ _ => Iff.rfl) (fun v' => by cases v' <;> simp [SameType])
  | treeLink b =>
    exact leaf assignTreeLink .treeLink LinkNode (fun _ _ h => by cases h; rfl)
      (fun _ _ => assignTreeLink_ok) (fun _ _ h => by cases h) (fun _ _ h => by cases h)
      (fun _ _ => Iff.rfl) (fun v' => by cases v' <;> simp [SameType])
  | commitLink b =>
    exact leaf assignCommitLink .commitLink LinkNode (fun _ _ h => by cases h; rfl)
      (fun _ _ => assignCommitLink_ok) (fun _ _ h => by cases h) (fun _ _ h => by cases h)
      (fun _ _ => Iff.rfl) (fun v' => by cases v' <;> simp [SameType])
  | linkList l =>
    exact fin (g := .linkList) (Y := ListNode LinkNode) (fun _ _ h => by cases h; rfl)
      (fun a => by
        show editLinkList fn [] _ path = _ ↔ _
        rw [linkList_edit]
        simp only [assignLinkList_ok]
        rfl)
      (fun _ _ => Iff.rfl) (fun v' => by cases v' <;> simp [SameType])
  | stringList l =>
    exact fin (g := .stringList) (Y := ListNode StrNode) (fun _ _ h => by cases h; rfl)
      (fun a => by
        show editStringList fn [] _ path = _ ↔ _
        rw [stringList_edit]
        simp only [assignStringList_ok]
        rfl)
      (fun _ _ => Iff.rfl) (fun v' => by cases v' <;> simp [SameType])
  | tagList l =>
    exact fin (g := .tagList) (Y := ListNode TagNode) (fun _ _ h => by cases h; rfl)
      (fun a => by
        show editTagList fn [] _ path = _ ↔ _
        rw [tagList_edit]
        simp only [assignTagList_ok]
        rfl)
      (fun _ _ => Iff.rfl) (fun v' => by cases v' <;> simp [SameType])
  | person q =>
    exact fin (g := .person) (Y := PersonNode) (fun _ _ h => by cases h; rfl)
      (fun a => by
        show editPerson fn (some .zero) _ path = _ ↔ _
        rw [person_edit]
        simp only [person_child_iff]
        rfl)
      (fun _ _ => Iff.rfl) (fun v' => by cases v' <;> simp [SameType])
  | treeEntry q =>
    exact fin (g := .treeEntry) (Y := TreeEntryNode) (fun _ _ h => by cases h; rfl)
      (fun a => treeEntry_edit fn _ path a)
      (fun _ _ => Iff.rfl) (fun v' => by cases v' <;> simp [SameType])
  | tag t =>
    exact fin (g := .tag) (Y := TagNode) (fun _ _ h => by cases h; rfl)
      (fun a => by
        show editTag fn _ path = _ ↔ _
        rw [tag_edit]
        simp only [build_tag]
        rfl)
      (fun _ _ => Iff.rfl) (fun v' => by cases v' <;> simp [SameType])


/-! ## Trees -/

/-- The rows that `editEntries` adds to a tree. -/
def editRows (enter : Option Node → Res TreeEntry) (key : Bytes) :
    List (Bytes × Node) → Bool → Res (List Row)
  | [], true => .ok []
  | [], false => do
    let e ← enter none
    .ok [(key, e)]
  | (k, v) :: r, b => do
    let e ← if k = key then enter (some v) else buildTreeEntry v
    let rows ← editRows enter key r (b || decide (k = key))
    .ok ((k, e) :: rows)

theorem tree_key_ok (pol : TreeAsm → Nat) (s : TreeAsm) (h : Between s) (k : Bytes) :
    ∃ s1 s2 s3 e0, s.assembleKey pol = .ok s1 ∧ s1.keyAssign k = .ok s2 ∧
      s2.assembleValue = .ok s3 ∧ s3.Inv ∧ s3.state = .midValue ∧ s3.cm = .absent ∧
      s3.va = some s3.last ∧ s3.committed = s.committed ++ [(k, e0)] := by
  obtain ⟨s0, hr, hcm0, hm0⟩ := between_ready h
  have hi := h.1
  have hs : ∃ s1, s.assembleKey pol = .ok s1 := by
    unfold TreeAsm.assembleKey
    rw [hr]
    exact ⟨_, rfl⟩
  obtain ⟨s1, hs1⟩ := hs
  obtain ⟨i1, c1, t1, k1, l1, m1, -, mp1⟩ := TreeAsm.assembleKey_ok hi hs1
  have hcm1 : s1.cm = .absent := (m1 s0 hr).trans hcm0
  have hs : ∃ s2, s1.keyAssign k = .ok s2 := by
    unfold TreeAsm.keyAssign
    rw [hcm1, k1]
    exact ⟨_, rfl⟩
  obtain ⟨s2, hs2⟩ := hs
  obtain ⟨i2, c2, t2, cm2, -, mp2, l2, v2⟩ := TreeAsm.keyAssign_ok i1 hs2
  obtain ⟨v, hv⟩ := v2 k1 l1
  have hs : ∃ s3, s2.assembleValue = .ok s3 := by
    unfold TreeAsm.assembleValue
    rw [t2]
    dsimp only
    rw [if_pos cm2, hv, List.getLast?_concat]
    dsimp only
    unfold TreeAsm.put
    dsimp only
    rw [mp2, mp1]
    cases hm : s.map with
    | none => exact absurd hm h.2.1
    | some mm => exact ⟨_, rfl⟩
  obtain ⟨s3, hs3⟩ := hs
  obtain ⟨i3, c3, t3, -, q3⟩ := TreeAsm.assembleValue_ok i2 hs3
  obtain ⟨cm3, va3⟩ := q3 t2
  rw [hv, c1] at c3
  exact ⟨s1, s2, s3, v, hs1, hs2, hs3, i3, t3, cm3, va3, c3⟩

theorem tree_setValue (deep : Bool) (r : Res TreeEntry) (s : TreeAsm) (k : Bytes)
    (e0 : TreeEntry) (init : List Row) (hi : s.Inv) (hst : s.state = .midValue)
    (hcm : s.cm = .absent) (hva : s.va = some s.last) (hc : s.committed = init ++ [(k, e0)]) :
    (∀ x, r = .err x → s.setValue deep r = .err x) ∧ (r = .panic → s.setValue deep r = .panic) ∧
    ∀ e, r = .ok e → ∃ s', s.setValue deep r = .ok s' ∧ Between s' ∧
      s'.committed = init ++ [(k, e)] := by
  have hb : ∃ s1 : TreeAsm, (if deep then s.valueBegin else Ret.ok s).res = .ok s1 ∧ s1.Inv ∧
      s1.state = .midValue ∧ (s1.cm = .absent ∨ s1.cm = .midvalue) ∧ s1.va = some s1.last ∧
      s1.committed = init ++ [(k, e0)] := by
    cases deep with
    | false => exact ⟨s, rfl, hi, hst, .inl hcm, hva, hc⟩
    | true =>
      refine ⟨{ s with cm := .midvalue }, ?_, TreeAsm.cm_inv hi _, hst, .inr rfl, hva, hc⟩
      simp only [if_true]
      unfold TreeAsm.valueBegin
      rw [hcm]
      rfl
  obtain ⟨s1, h1, i1, st1, cm1, va1, c1⟩ := hb
  unfold TreeAsm.setValue
  rw [h1, Res.bind_ok]
  refine ⟨fun x hx => by rw [hx]; rfl, fun hx => by rw [hx]; rfl, ?_⟩
  intro e he
  rw [he, Res.bind_ok]
  have hw : s1.valueWrite e = .ok (s1.store s1.last (fun r => (r.1, e))) := by
    unfold TreeAsm.valueWrite
    rcases cm1 with h | h <;> rw [h, va1]
  obtain ⟨w1, -, w3, w4, -, w6, w7, w8⟩ := TreeAsm.valueWrite_ok i1 hw
  have hc2 := w8 va1 _ _ c1
  refine ⟨{ s1.store s1.last (fun r => (r.1, e)) with cm := .value }, ?_,
    ⟨TreeAsm.cm_inv w1 _, (map_of_committed w1 hc2 : _ ≠ none), .inr ⟨w3.trans st1, rfl⟩⟩, hc2⟩
  rw [hw]
  show (TreeAsm.valueDone _).res = _
  unfold TreeAsm.valueDone
  rcases cm1 with h | h <;> rw [w4, h] <;> rfl

theorem tree_finish (s : TreeAsm) (h : Between s) :
    ∃ s', s.finish.res = .ok s' ∧ s'.Inv ∧ s'.table = s.committed ∧ s'.committed = s'.table := by
  obtain ⟨s2, hr, -, -⟩ := between_ready h
  have hf : ∃ s', s.finish = .ok s' := by
    unfold TreeAsm.finish
    rw [hr]
    exact ⟨_, rfl⟩
  obtain ⟨s', hf⟩ := hf
  obtain ⟨i1, i2, i3, -, i5, i6⟩ := TreeAsm.finish_ok h.1 hf
  exact ⟨s', by rw [hf]; rfl, i1, by rw [← i6, i2], i6⟩

theorem tree_entries (pol : TreeAsm → Nat) (deep : Bool) (enter : Option Node → Res TreeEntry)
    (key : Bytes) (es : List (Bytes × Node)) (b : Bool) (s : TreeAsm) (h : Between s) :
    (∀ x, editRows enter key es b = .err x →
      TreeAsm.editEntries pol deep enter key es b s = .err x) ∧
    (editRows enter key es b = .panic →
      TreeAsm.editEntries pol deep enter key es b s = .panic) ∧
    ∀ rows, editRows enter key es b = .ok rows →
      ∃ s', TreeAsm.editEntries pol deep enter key es b s = .ok s' ∧ s'.Inv ∧
        s'.table = s.committed ++ rows ∧ s'.committed = s'.table := by
  induction es generalizing b s with
  | nil =>
    cases b with
    | true =>
      refine ⟨(fun x hx => by cases hx), (fun hx => by cases hx), ?_⟩
      intro rows hrows
      cases hrows
      obtain ⟨s', h1, h2, h3, h4⟩ := tree_finish s h
      exact ⟨s', h1, h2, by rw [h3, List.append_nil], h4⟩
    | false =>
      obtain ⟨s1, s2, s3, e0, k1, k2, k3, i3, t3, cm3, va3, c3⟩ := tree_key_ok pol s h key
      obtain ⟨v1, v2, v3⟩ := tree_setValue deep (enter none) s3 key e0 _ i3 t3 cm3 va3 c3
      unfold TreeAsm.editEntries editRows
      simp only [k1, k2, k3, Ret.res, Res.bind_ok]
      cases he : enter none with
      | err x =>
        rw [he] at v1
        refine ⟨?_, (fun hx => by cases hx), (fun _ hx => by cases hx)⟩
        intro y hy
        cases hy
        rw [v1 x rfl]
        rfl
      | panic =>
        rw [he] at v2
        refine ⟨(fun _ hx => by cases hx), ?_, (fun _ hx => by cases hx)⟩
        intro _
        rw [v2 rfl]
        rfl
      | ok e =>
        rw [he] at v3
        refine ⟨(fun _ hx => by cases hx), (fun hx => by cases hx), ?_⟩
        intro rows hrows
        cases hrows
        obtain ⟨s4, w1, w2, w3⟩ := v3 e rfl
        obtain ⟨s', h1, h2, h3, h4⟩ := tree_finish s4 w2
        rw [w1]
        exact ⟨s', h1, h2, by rw [h3, w3], h4⟩
  | cons x r ih =>
    obtain ⟨k, v⟩ := x
    obtain ⟨s1, s2, s3, e0, k1, k2, k3, i3, t3, cm3, va3, c3⟩ := tree_key_ok pol s h k
    have hstep : ∀ (dp : Bool) (R : Res TreeEntry) (b' : Bool),
        (∀ x, (R >>= fun e => editRows enter key r b' >>= fun rows => Res.ok ((k, e) :: rows)) =
            .err x →
          (s3.setValue dp R >>= TreeAsm.editEntries pol deep enter key r b') = .err x) ∧
        ((R >>= fun e => editRows enter key r b' >>= fun rows => Res.ok ((k, e) :: rows)) =
            .panic →
          (s3.setValue dp R >>= TreeAsm.editEntries pol deep enter key r b') = .panic) ∧
        ∀ rows, (R >>= fun e => editRows enter key r b' >>= fun rows => Res.ok ((k, e) :: rows)) =
            .ok rows →
          ∃ s', (s3.setValue dp R >>= TreeAsm.editEntries pol deep enter key r b') = .ok s' ∧
            s'.Inv ∧ s'.table = s.committed ++ rows ∧ s'.committed = s'.table := by
      intro dp R b'
      obtain ⟨v1, v2, v3⟩ := tree_setValue dp R s3 k e0 _ i3 t3 cm3 va3 c3
      cases R with
      | err x =>
        refine ⟨?_, (fun hx => by cases hx), (fun _ hx => by cases hx)⟩
        intro y hy
        cases hy
        rw [v1 x rfl]
        rfl
      | panic =>
        refine ⟨(fun _ hx => by cases hx), ?_, (fun _ hx => by cases hx)⟩
        intro _
        rw [v2 rfl]
        rfl
      | ok e =>
        obtain ⟨s4, w1, w2, w3⟩ := v3 e rfl
        obtain ⟨j1, j2, j3⟩ := ih b' s4 w2
        rw [w1]
        simp only [Res.bind_ok]
        cases hrw : editRows enter key r b' with
        | err x =>
          refine ⟨?_, (fun hx => by cases hx), (fun _ hx => by cases hx)⟩
          intro y hy
          cases hy
          exact j1 x hrw
        | panic =>
          exact ⟨(fun _ hx => by cases hx), (fun _ => j2 hrw), (fun _ hx => by cases hx)⟩
        | ok rows =>
          refine ⟨(fun _ hx => by cases hx), (fun hx => by cases hx), ?_⟩
          intro rows' hrows
          cases hrows
          obtain ⟨s', q1, q2, q3, q4⟩ := j3 rows hrw
          exact ⟨s', q1, q2, by rw [q3, w3]; simp, q4⟩
    unfold TreeAsm.editEntries editRows
    simp only [k1, k2, k3, Ret.res, Res.bind_ok]
    by_cases hk : k = key
    · simp only [hk, decide_true, Bool.or_true]
      rw [hk] at hstep
      exact hstep deep (enter (some v)) true
    · simp only [hk, decide_false, Bool.or_false]
      exact hstep false (buildTreeEntry v) b

/-- Rows that denote a list of entries. -/
def RowsOf (es : List (Bytes × Node)) (rows : List Row) : Prop :=
  es.map Prod.fst = rows.map Prod.fst ∧ Each TreeEntryNode (es.map Prod.snd) (rows.map Prod.snd)

theorem rowsOf_cons {k : Bytes} {v : Node} {r : List (Bytes × Node)} {rows : List Row} :
    RowsOf ((k, v) :: r) rows ↔
      ∃ e rest, rows = (k, e) :: rest ∧ TreeEntryNode v e ∧ RowsOf r rest := by
  constructor
  · rintro ⟨h1, h2⟩
    cases rows with
    | nil => cases h1
    | cons x rest =>
      obtain ⟨k', e⟩ := x
      simp only [List.map_cons, List.cons.injEq] at h1
      obtain ⟨rfl, h1⟩ := h1
      exact ⟨e, rest, rfl, h2.1, h1, h2.2⟩
  · rintro ⟨e, rest, rfl, h1, h2, h3⟩
    exact ⟨by simp [h2], h1, h3⟩

theorem editRows_ok (fn : Change) (p : List Seg) (key : Bytes) (es : List (Bytes × Node))
    (b : Bool) (rows : List Row) :
    editRows (fun n => editTreeEntry fn n p) key es b = .ok rows ↔
      ∃ es', EditRest (Edited fn p) key b es es' ∧ RowsOf es' rows := by
  induction es generalizing b rows with
  | nil =>
    cases b with
    | true =>
      simp only [editRest_nil_true, exists_eq_left]
      unfold editRows
      constructor
      · intro h
        cases h
        exact ⟨rfl, trivial⟩
      · rintro ⟨h, -⟩
        cases rows with
        | nil => rfl
        | cons => cases h
    | false =>
      simp only [editRest_nil_false]
      unfold editRows
      constructor
      · intro h
        obtain ⟨e, h1, h2⟩ := Res.bind_eq_ok.1 h
        cases h2
        obtain ⟨v', h3, h4⟩ := (treeEntry_edit fn none p e).1 h1
        exact ⟨_, ⟨v', h3, rfl⟩, rowsOf_cons.2 ⟨e, [], rfl, h4, rfl, trivial⟩⟩
      · rintro ⟨es', ⟨v', h3, rfl⟩, h⟩
        obtain ⟨e, rest, rfl, h4, h5, -⟩ := rowsOf_cons.1 h
        have : rest = [] := by
          cases rest with
          | nil => rfl
          | cons => cases h5
        subst this
        rw [(treeEntry_edit fn none p e).2 ⟨v', h3, h4⟩]
        rfl
  | cons x r ih =>
    obtain ⟨k, v⟩ := x
    unfold editRows
    by_cases hk : k = key
    · subst hk
      simp only [if_true, decide_true, Bool.or_true, editRest_key]
      constructor
      · intro h
        obtain ⟨e, h1, h⟩ := Res.bind_eq_ok.1 h
        obtain ⟨rest, h2, h3⟩ := Res.bind_eq_ok.1 h
        cases h3
        obtain ⟨v', h4, h5⟩ := (treeEntry_edit fn (some v) p e).1 h1
        obtain ⟨r', h6, h7⟩ := (ih true rest).1 h2
        exact ⟨_, ⟨v', r', rfl, h4, h6⟩, rowsOf_cons.2 ⟨e, rest, rfl, h5, h7⟩⟩
      · rintro ⟨es', ⟨v', r', rfl, h4, h6⟩, h⟩
        obtain ⟨e, rest, rfl, h5, h7⟩ := rowsOf_cons.1 h
        rw [(treeEntry_edit fn (some v) p e).2 ⟨v', h4, h5⟩, Res.bind_ok,
          (ih true rest).2 ⟨r', h6, h7⟩]
        rfl
    · simp only [hk, decide_false, Bool.or_false, editRest_other hk]
      constructor
      · intro h
        obtain ⟨e, h1, h⟩ := Res.bind_eq_ok.1 h
        obtain ⟨rest, h2, h3⟩ := Res.bind_eq_ok.1 h
        cases h3
        obtain ⟨r', h6, h7⟩ := (ih b rest).1 h2
        exact ⟨_, ⟨r', rfl, h6⟩, rowsOf_cons.2 ⟨e, rest, rfl, (build_treeEntry v e).1 h1, h7⟩⟩
      · rintro ⟨es', ⟨r', rfl, h6⟩, h⟩
        obtain ⟨e, rest, rfl, h5, h7⟩ := rowsOf_cons.1 h
        rw [(build_treeEntry v e).2 h5, Res.bind_ok, (ih b rest).2 ⟨r', h6, h7⟩]
        rfl

theorem tree_iterator (repr : Bool) (t : Tree) :
    ∃ es, (viewOf repr (.tree t)).mapIterator = some es ∧
      (viewOf repr (.tree t)).listIterator = none ∧
      es = t.t.map fun r => (r.1, viewOf repr (.treeEntry r.2)) := by
  cases repr
  · exact ⟨_, rfl, rfl, rfl⟩
  · exact ⟨_, rfl, rfl, rfl⟩

theorem tree_edit_eq (pol : TreeAsm → Nat) (repr : Bool) (t : Tree) (fn : Change) (g : Seg)
    (p : List Seg) :
    ∃ es, (viewOf repr (.tree t)).mapIterator = some es ∧
      (∀ x, editRows (fun n => editTreeEntry fn n p) g.string es false = .err x →
        transform pol repr (.tree t) fn (g :: p) = .err x) ∧
      (editRows (fun n => editTreeEntry fn n p) g.string es false = .panic →
        transform pol repr (.tree t) fn (g :: p) = .panic) ∧
      ∀ rows, editRows (fun n => editTreeEntry fn n p) g.string es false = .ok rows →
        ∃ t', transform pol repr (.tree t) fn (g :: p) = .ok (.tree t') ∧ t'.t = rows ∧
          ∀ k, mapGet t'.m k = lastFor rows k := by
  obtain ⟨es, hes, -, -⟩ := tree_iterator repr t
  refine ⟨es, hes, ?_⟩
  have hb : ∃ s0, TreeAsm.fresh.beginMap (es.length + 1) = .ok s0 ∧ Between s0 ∧
      s0.committed = [] :=
    ⟨_, rfl, ⟨TreeAsm.beginMap_inv TreeAsm.fresh_inv rfl, (fun h => by cases h),
      .inl ⟨rfl, rfl⟩⟩, rfl⟩
  obtain ⟨s0, h0, b0, c0⟩ := hb
  obtain ⟨j1, j2, j3⟩ := tree_entries pol (!p.isEmpty) (fun n => editTreeEntry fn n p) g.string es
    false s0 b0
  have htr : transform pol repr (.tree t) fn (g :: p) =
      ((TreeAsm.editEntries pol (!p.isEmpty) (fun n => editTreeEntry fn n p) g.string es false s0
        >>= fun s => Res.ok s.built) >>= fun t => Res.ok (.tree t)) := by
    show (editTree pol fn (viewOf repr (.tree t)) (g :: p) >>= _) = _
    unfold editTree
    rw [hes]
    dsimp only
    rw [h0]
    rfl
  rw [htr]
  refine ⟨fun x hx => by rw [j1 x hx]; rfl, fun hx => by rw [j2 hx]; rfl, ?_⟩
  intro rows hrows
  obtain ⟨s', h1, h2, h3, h4⟩ := j3 rows hrows
  refine ⟨s'.built, by rw [h1]; rfl, ?_, ?_⟩
  · show s'.table = rows
    rw [h3, c0]
    rfl
  · intro k
    rw [mapGet_built h2, h2.lookup k, h4, h3, c0]
    rfl

/-- **Editing trees.** `FocusedTransform` below the top of a tree gives exactly the
tree whose rows the edited data denotes, in order; a lookup in it finds the last row of
a name. -/
theorem transform_tree (pol : TreeAsm → Nat) (repr : Bool) (t : Tree) (fn : Change) (g : Seg)
    (p : List Seg) (rows : List Row) :
    (∃ t', transform pol repr (.tree t) fn (g :: p) = .ok (.tree t') ∧ t'.t = rows) ↔
      ∃ n', Edited fn (g :: p) (some (viewOf repr (.tree t))) n' ∧ RowsNode n' rows := by
  obtain ⟨es, hes, h1, h2, h3⟩ := tree_edit_eq pol repr t fn g p
  obtain ⟨es0, hes0, hl, -⟩ := tree_iterator repr t
  have hr := editRows_ok fn p g.string es false rows
  constructor
  · rintro ⟨t', ht', hrows⟩
    cases hx : editRows (fun n => editTreeEntry fn n p) g.string es false with
    | err x => rw [h1 x hx] at ht'; cases ht'
    | panic => rw [h2 hx] at ht'; cases ht'
    | ok rows' =>
      obtain ⟨t2, q1, q2, -⟩ := h3 rows' hx
      rw [q1] at ht'
      cases ht'
      have : rows' = rows := q2.symm.trans hrows
      subst this
      obtain ⟨es', e1, e2, e3⟩ := hr.1 hx
      exact ⟨.map es', Or.inl ⟨es, es', hes, e1, rfl⟩, es', rfl, e2, e3⟩
  · rintro ⟨n', ⟨es1, es', a1, a2, rfl⟩ | ⟨ns, ns', i, a1, -⟩, hrows⟩
    · rw [hes] at a1
      cases a1
      obtain ⟨es2, b1, b2, b3⟩ := hrows
      cases b1
      obtain ⟨t', q1, q2, -⟩ := h3 rows (hr.2 ⟨es', a2, b2, b3⟩)
      exact ⟨t', q1, q2⟩
    · rw [hl] at a1
      cases a1

/-- Lookups in an edited tree. -/
theorem transform_tree_lookup (pol : TreeAsm → Nat) (repr : Bool) (t t' : Tree) (fn : Change)
    (g : Seg) (p : List Seg) (h : transform pol repr (.tree t) fn (g :: p) = .ok (.tree t'))
    (k : Bytes) : mapGet t'.m k = lastFor t'.t k := by
  obtain ⟨es, -, h1, h2, h3⟩ := tree_edit_eq pol repr t fn g p
  cases hx : editRows (fun n => editTreeEntry fn n p) g.string es false with
  | err x => rw [h1 x hx] at h; cases h
  | panic => rw [h2 hx] at h; cases h
  | ok rows =>
    obtain ⟨t2, q1, q2, q3⟩ := h3 rows hx
    rw [q1] at h
    cases h
    rw [q2]
    exact q3 k


/-! ## Commits -/

theorem person_edit_none (fn : Change) (n : Option Node) (s : Seg) (r : List Seg)
    (q : PersonInfo) :
    editPerson fn none n (s :: r) = .ok q ↔ ∃ v', Edited fn (s :: r) n v' ∧ PersonNode v' q := by
  have : editPerson fn none n (s :: r) = editPerson fn (some .zero) n (s :: r) := by
    cases n <;> rfl
  rw [this, person_edit]
  simp only [person_child_iff]

/-- What is assigned to the field of a commit that the path enters: what the edit gives,
but for author and committer, if the path goes on, a typed person. -/
def commitR (fn : Change) (key : Bytes) (p : List Seg) (n : Option Node) (v : Node) : Prop :=
  if (key = b!"author" ∨ key = b!"committer") ∧ p ≠ [] then
    ∃ v' q, Edited fn p n v' ∧ PersonNode v' q ∧ v = .own (.person q)
  else Edited fn p n v

/-- The list under a key is still empty. -/
def commitQ (key : Bytes) (w : Commit) : Prop :=
  (key = b!"parents" → w.parents = []) ∧ (key = b!"mergetag" → w.mergetag = []) ∧
    (key = b!"other" → w.other = [])

theorem commitR_plain {fn : Change} {key : Bytes} {p : List Seg} {n : Option Node} {v : Node}
    (h : ¬ (key = b!"author" ∨ key = b!"committer")) : commitR fn key p n v ↔ Edited fn p n v := by
  unfold commitR
  rw [if_neg (fun h' => h h'.1)]

theorem person_edit_commit (fn : Change) (key : Bytes)
    (hk : key = b!"author" ∨ key = b!"committer") (p : List Seg) (n : Option Node)
    (q : PersonInfo) :
    editPerson fn none n p = .ok q ↔
      ∃ v, commitR fn key p n v ∧ personStruct.child none v = .ok q := by
  unfold commitR
  cases p with
  | nil =>
    simp only [ne_eq, not_true_eq_false, and_false, if_false]
    show Res.bind (fn n) _ = _ ↔ ∃ v', fn n = .ok v' ∧ _
    exact Res.bind_eq_ok
  | cons s r =>
    simp only [hk, ne_eq, reduceCtorEq, not_false_eq_true, and_self, if_true]
    rw [person_edit_none]
    constructor
    · rintro ⟨v', h1, h2⟩
      exact ⟨_, ⟨v', q, h1, h2, rfl⟩, rfl⟩
    · rintro ⟨v, ⟨v', q', h1, h2, rfl⟩, h3⟩
      cases h3
      exact ⟨v', h1, h2⟩

theorem commit_enters (fn : Change) (p : List Seg) (k : Bytes) :
    commitStruct.Enters (commitEnter fn p) k (commitR fn k p) (commitQ k) where
  here := by
    intro i f hi hname w hQ n w'
    match i with
    | 0 =>
      cases hi
      subst hname
      simp only [commitR_plain (show ¬ (b!"tree" = b!"author" ∨ b!"tree" = b!"committer") by decide)]
      exact field_lift (leaf_treeLink fn n p) (fun x => { w with tree := x }) w'
    | 1 =>
      cases hi
      subst hname
      simp only [commitR_plain
        (show ¬ (b!"parents" = b!"author" ∨ b!"parents" = b!"committer") by decide)]
      refine field_lift (X := editLinkList fn w.parents n p)
        (Y := fun n => assignLinkList w.parents n) ?_ (fun x => { w with parents := x }) w'
      rw [show w.parents = [] from hQ.1 rfl]
      exact linkList_edit fn n p
    | 2 =>
      cases hi
      subst hname
      simp only [commitR_plain
        (show ¬ (b!"message" = b!"author" ∨ b!"message" = b!"committer") by decide)]
      exact field_lift (leaf_string fn n p) (fun x => { w with message := x }) w'
    | 3 =>
      cases hi
      subst hname
      exact field_lift (once_lift (person_edit_commit fn b!"author" (.inl rfl) p n) w.author)
        (fun x => { w with author := x }) w'
    | 4 =>
      cases hi
      subst hname
      exact field_lift
        (once_lift (person_edit_commit fn b!"committer" (.inr rfl) p n) w.committer)
        (fun x => { w with committer := x }) w'
    | 5 =>
      cases hi
      subst hname
      simp only [commitR_plain
        (show ¬ (b!"encoding" = b!"author" ∨ b!"encoding" = b!"committer") by decide)]
      exact field_lift (once_lift (leaf_string fn n p) w.encoding)
        (fun x => { w with encoding := x }) w'
    | 6 =>
      cases hi
      subst hname
      simp only [commitR_plain
        (show ¬ (b!"signature" = b!"author" ∨ b!"signature" = b!"committer") by decide)]
      exact field_lift (once_lift (leaf_gpgSig fn n p) w.signature)
        (fun x => { w with signature := x }) w'
    | 7 =>
      cases hi
      subst hname
      simp only [commitR_plain
        (show ¬ (b!"mergetag" = b!"author" ∨ b!"mergetag" = b!"committer") by decide)]
      refine field_lift (X := editTagList fn w.mergetag n p)
        (Y := fun n => assignTagList w.mergetag n) ?_ (fun x => { w with mergetag := x }) w'
      rw [show w.mergetag = [] from hQ.2.1 rfl]
      exact tagList_edit fn n p
    | 8 =>
      cases hi
      subst hname
      simp only [commitR_plain
        (show ¬ (b!"other" = b!"author" ∨ b!"other" = b!"committer") by decide)]
      refine field_lift (X := editStringList fn w.other n p)
        (Y := fun n => assignStringList w.other n) ?_ (fun x => { w with other := x }) w'
      rw [show w.other = [] from hQ.2.2 rfl]
      exact stringList_edit fn n p
    | _ + 9 => cases hi
  keep := by
    intro f hf hname w v w' hQ h
    simp only [commitStruct, List.mem_cons, List.not_mem_nil, or_false] at hf
    rcases hf with rfl | rfl | rfl | rfl | rfl | rfl | rfl | rfl | rfl <;>
    · obtain ⟨x, -, h2⟩ := Res.bind_eq_ok.1 h
      cases h2
      obtain ⟨q1, q2, q3⟩ := hQ
      exact ⟨fun hk => by first | exact q1 hk | exact absurd hk.symm hname,
        fun hk => by first | exact q2 hk | exact absurd hk.symm hname,
        fun hk => by first | exact q3 hk | exact absurd hk.symm hname⟩

theorem commit_edit_run (fn : Change) (n : Node) (g : Seg) (p : List Seg) (c : Commit) :
    editCommit fn (some n) (g :: p) = .ok c ↔
      ∃ es es', n.mapIterator = some es ∧ EditMap (commitR fn g.string p) g.string es es' ∧
        buildCommit (.map es') = .ok c := by
  unfold editCommit
  rw [commitStruct.edit_deep .zero fn (commitEnter fn) (some .zero) n g p _ _
    (commit_enters fn p g.string) ⟨fun _ => rfl, fun _ => rfl, fun _ => rfl⟩]
  have hrun : ∀ es, buildCommit (.map es) = commitStruct.run es .zero 0 := by
    intro es
    show commitStruct.child (some Commit.zero) _ = _
    rw [commitStruct.child_some]
    rfl
  simp only [hrun]
  rfl

/-! Typed persons for what denotes them -/

/-- One entries list has typed persons where the other has nodes that denote them. -/
def Typed (key : Bytes) : List (Bytes × Node) → List (Bytes × Node) → Prop
  | [], [] => True
  | (k, v) :: r, (k', v') :: r' =>
    k' = k ∧ (v' = v ∨ (k = key ∧ ∃ q, PersonNode v q ∧ v' = .own (.person q))) ∧ Typed key r r'
  | _, _ => False

theorem typed_keys {key : Bytes} : ∀ {es es' : List (Bytes × Node)}, Typed key es es' →
    es'.map Prod.fst = es.map Prod.fst
  | [], [], _ => rfl
  | (k, v) :: r, (k', v') :: r', h => by
    obtain ⟨rfl, -, h⟩ := h
    simp [typed_keys h]
  | [], _ :: _, h => h.elim
  | _ :: _, [], h => h.elim

theorem typed_mem {key : Bytes} : ∀ {es es' : List (Bytes × Node)}, Typed key es es' →
    ∀ k v', (k, v') ∈ es' → ∃ v, (k, v) ∈ es ∧
      (v' = v ∨ (k = key ∧ ∃ q, PersonNode v q ∧ v' = .own (.person q)))
  | [], [], _, k, v', hm => by cases hm
  | (k0, v0) :: r, (k1, v1) :: r', h, k, v', hm => by
    obtain ⟨rfl, h1, h⟩ := h
    rcases List.mem_cons.1 hm with hm | hm
    · cases hm
      exact ⟨v0, List.mem_cons_self, h1⟩
    · obtain ⟨v, h2, h3⟩ := typed_mem h k v' hm
      exact ⟨v, List.mem_cons_of_mem _ h2, h3⟩
  | [], _ :: _, h, _, _, _ => h.elim
  | _ :: _, [], h, _, _, _ => h.elim

theorem typed_mem' {key : Bytes} : ∀ {es es' : List (Bytes × Node)}, Typed key es es' →
    ∀ k v, (k, v) ∈ es → ∃ v', (k, v') ∈ es' ∧
      (v' = v ∨ (k = key ∧ ∃ q, PersonNode v q ∧ v' = .own (.person q)))
  | [], [], _, k, v', hm => by cases hm
  | (k0, v0) :: r, (k1, v1) :: r', h, k, v, hm => by
    obtain ⟨rfl, h1, h⟩ := h
    rcases List.mem_cons.1 hm with hm | hm
    · cases hm
      exact ⟨v1, List.mem_cons_self, h1⟩
    · obtain ⟨v', h2, h3⟩ := typed_mem' h k v hm
      exact ⟨v', List.mem_cons_of_mem _ h2, h3⟩
  | [], _ :: _, h, _, _, _ => h.elim
  | _ :: _, [], h, _, _, _ => h.elim

theorem typed_commitNode {key : Bytes} (hk : key = b!"author" ∨ key = b!"committer")
    {es es' : List (Bytes × Node)} (h : Typed key es es') (c : Commit) :
    CommitNode (.map es') c ↔ CommitNode (.map es) c := by
  have hkeys := typed_keys h
  have hat : ∀ (k : Bytes) (P : Node → Prop), k ≠ key → (At es' k P ↔ At es k P) := by
    intro k P hne
    constructor
    · intro ha v hv
      obtain ⟨v', h1, h2⟩ := typed_mem' h k v hv
      rcases h2 with rfl | ⟨h2, -⟩
      · exact ha _ h1
      · exact absurd h2 hne
    · intro ha v hv
      obtain ⟨v', h1, h2⟩ := typed_mem h k v hv
      rcases h2 with rfl | ⟨h2, -⟩
      · exact ha _ h1
      · exact absurd h2 hne
  have hopt : ∀ (k : Bytes) (o : Option PersonInfo),
      (OptAt es' k PersonNode o ↔ OptAt es k PersonNode o) := by
    intro k o
    unfold OptAt
    rw [hkeys]
    refine and_congr Iff.rfl ?_
    have hsame : ∀ v v', (v' = v ∨ (k = key ∧ ∃ q, PersonNode v q ∧ v' = .own (.person q))) →
        (((v' = .absent ∧ o = none) ∨ ∃ a, PersonNode v' a ∧ o = some a) ↔
          ((v = .absent ∧ o = none) ∨ ∃ a, PersonNode v a ∧ o = some a)) := by
      intro v v' hvv
      rcases hvv with rfl | ⟨-, q, hq, rfl⟩
      · exact Iff.rfl
      · constructor
        · rintro (⟨h1, -⟩ | ⟨a, h1, h2⟩)
          · cases h1
          · have := personNode_unique h1 (own_person q)
            subst this
            exact Or.inr ⟨_, hq, h2⟩
        · rintro (⟨rfl, -⟩ | ⟨a, h1, h2⟩)
          · exact absurd hq (personNode_absent q)
          · have := personNode_unique h1 hq
            subst this
            exact Or.inr ⟨_, own_person _, h2⟩
    constructor
    · intro ha v hv
      obtain ⟨v', h1, h2⟩ := typed_mem' h k v hv
      exact (hsame v v' h2).1 (ha v' h1)
    · intro ha v' hv
      obtain ⟨v, h1, h2⟩ := typed_mem h k v' hv
      exact (hsame v v' h2).2 (ha v h1)
  have hopt2 : ∀ (k : Bytes) (o : Option Bytes), k ≠ key →
      (OptAt es' k StrNode o ↔ OptAt es k StrNode o) := by
    intro k o hne
    unfold OptAt
    rw [hkeys]
    exact and_congr Iff.rfl (hat k _ hne)
  have hne : ∀ k, k ≠ b!"author" → k ≠ b!"committer" → k ≠ key := by
    intro k h1 h2 h3
    subst h3
    rcases hk with h | h
    · exact h1 h
    · exact h2 h
  have hK : ∀ r o, KeysOk r o es' ↔ KeysOk r o es := by
    intro r o
    unfold KeysOk
    rw [hkeys]
  unfold CommitNode
  constructor
  · rintro ⟨es0, h0, k0, a1, a2, a3, a4, a5, a6, a7, a8, a9⟩
    cases h0
    exact ⟨es, rfl, (hK _ _).1 k0, (hat _ _ (hne _ (by decide) (by decide))).1 a1,
      (hat _ _ (hne _ (by decide) (by decide))).1 a2,
      (hat _ _ (hne _ (by decide) (by decide))).1 a3, (hopt _ _).1 a4, (hopt _ _).1 a5,
      (hopt2 _ _ (hne _ (by decide) (by decide))).1 a6,
      (hopt2 _ _ (hne _ (by decide) (by decide))).1 a7,
      (hat _ _ (hne _ (by decide) (by decide))).1 a8,
      (hat _ _ (hne _ (by decide) (by decide))).1 a9⟩
  · rintro ⟨es0, h0, k0, a1, a2, a3, a4, a5, a6, a7, a8, a9⟩
    cases h0
    exact ⟨es', rfl, (hK _ _).2 k0, (hat _ _ (hne _ (by decide) (by decide))).2 a1,
      (hat _ _ (hne _ (by decide) (by decide))).2 a2,
      (hat _ _ (hne _ (by decide) (by decide))).2 a3, (hopt _ _).2 a4, (hopt _ _).2 a5,
      (hopt2 _ _ (hne _ (by decide) (by decide))).2 a6,
      (hopt2 _ _ (hne _ (by decide) (by decide))).2 a7,
      (hat _ _ (hne _ (by decide) (by decide))).2 a8,
      (hat _ _ (hne _ (by decide) (by decide))).2 a9⟩

theorem swap_typed {fn : Change} {key : Bytes} {p : List Seg} :
    ∀ {es es' : List (Bytes × Node)},
    Swap (fun n v => ∃ v' q, Edited fn p n v' ∧ PersonNode v' q ∧ v = .own (.person q)) key es es' →
    ∃ es1, Swap (Edited fn p) key es es1 ∧ Typed key es1 es' ∧
      ∀ v, (key, v) ∈ es1 → ∃ q, PersonNode v q
  | [], [], _ => ⟨[], trivial, trivial, fun v hv => by cases hv⟩
  | (k, v) :: r, (k', v') :: r', h => by
    obtain ⟨rfl, h1, h⟩ := h
    obtain ⟨es1, i1, i2, i3⟩ := swap_typed h
    by_cases hk : k' = key
    · rw [if_pos hk] at h1
      obtain ⟨v1, q, e1, e2, rfl⟩ := h1
      refine ⟨(k', v1) :: es1, ⟨rfl, by rw [if_pos hk]; exact e1, i1⟩,
        ⟨rfl, .inr ⟨hk, q, e2, rfl⟩, i2⟩, ?_⟩
      intro v2 hv2
      rcases List.mem_cons.1 hv2 with hv2 | hv2
      · cases hv2
        exact ⟨q, e2⟩
      · exact i3 v2 hv2
    · rw [if_neg hk] at h1
      subst h1
      refine ⟨(k', v') :: es1, ⟨rfl, by rw [if_neg hk], i1⟩, ⟨rfl, .inl rfl, i2⟩, ?_⟩
      intro v2 hv2
      rcases List.mem_cons.1 hv2 with hv2 | hv2
      · cases hv2
        exact absurd rfl hk
      · exact i3 v2 hv2
  | [], _ :: _, h => h.elim
  | _ :: _, [], h => h.elim

theorem typed_swap {fn : Change} {key : Bytes} {p : List Seg} :
    ∀ {es es1 : List (Bytes × Node)}, Swap (Edited fn p) key es es1 →
    (∀ v, (key, v) ∈ es1 → ∃ q, PersonNode v q) →
    ∃ es', Typed key es1 es' ∧
      Swap (fun n v => ∃ v' q, Edited fn p n v' ∧ PersonNode v' q ∧ v = .own (.person q)) key
        es es' ∧ ∀ v, (key, v) ∈ es' → ∃ q, v = .own (.person q)
  | [], [], _, _ => ⟨[], trivial, trivial, fun v hv => by cases hv⟩
  | (k, v) :: r, (k', v1) :: r', h, hp => by
    obtain ⟨rfl, h1, h⟩ := h
    obtain ⟨es1, i1, i2, i3⟩ := typed_swap h (fun v hv => hp v (List.mem_cons_of_mem _ hv))
    by_cases hk : k' = key
    · rw [if_pos hk] at h1
      obtain ⟨q, hq⟩ := hp v1 (by rw [← hk]; exact List.mem_cons_self)
      refine ⟨(k', .own (.person q)) :: es1, ⟨rfl, .inr ⟨hk, q, hq, rfl⟩, i1⟩,
        ⟨rfl, by rw [if_pos hk]; exact ⟨v1, q, h1, hq, rfl⟩, i2⟩, ?_⟩
      intro v2 hv2
      rcases List.mem_cons.1 hv2 with hv2 | hv2
      · cases hv2
        exact ⟨q, rfl⟩
      · exact i3 v2 hv2
    · rw [if_neg hk] at h1
      subst h1
      refine ⟨(k', v1) :: es1, ⟨rfl, .inl rfl, i1⟩, ⟨rfl, by rw [if_neg hk], i2⟩, ?_⟩
      intro v2 hv2
      rcases List.mem_cons.1 hv2 with hv2 | hv2
      · cases hv2
        exact absurd rfl hk
      · exact i3 v2 hv2
  | [], _ :: _, h, _ => h.elim
  | _ :: _, [], h, _ => h.elim

theorem commit_iterator (repr : Bool) (c : Commit) :
    (viewOf repr (.commit c)).listIterator = none := by
  cases repr <;> rfl

theorem transform_commit_raw (pol : TreeAsm → Nat) (repr : Bool) (c : Commit) (fn : Change)
    (g : Seg) (p : List Seg) (v' : Own) :
    transform pol repr (.commit c) fn (g :: p) = .ok v' ↔ ∃ c', v' = .commit c' ∧
      ∃ es es', (viewOf repr (.commit c)).mapIterator = some es ∧
        EditMap (commitR fn g.string p) g.string es es' ∧ CommitNode (.map es') c' ∧
        BuilderExtra (.map es') := by
  show (editCommit fn (some (viewOf repr (.commit c))) (g :: p) >>= fun c => Res.ok (Own.commit c)) =
    _ ↔ _
  constructor
  · intro h
    obtain ⟨c', h1, h2⟩ := Res.bind_eq_ok.1 h
    obtain ⟨es, es', e1, e2, e3⟩ := (commit_edit_run fn _ g p c').1 h1
    exact ⟨c', (Res.ok.inj h2).symm, es, es', e1, e2,
      (build_commit_iff (fun _ h => by cases h) c').1 e3⟩
  · rintro ⟨c', rfl, es, es', e1, e2, e3⟩
    rw [(commit_edit_run fn _ g p c').2
      ⟨es, es', e1, e2, (build_commit_iff (fun _ h => by cases h) c').2 e3⟩]
    rfl

/-- **Editing commits.** `FocusedTransform` below the top of a commit gives exactly the
commit that the edited data denotes, provided that no value in it is `ipld.Absent` and
that author and committer are typed persons or the path goes into them. -/
theorem transform_commit (pol : TreeAsm → Nat) (repr : Bool) (c : Commit) (fn : Change)
    (g : Seg) (p : List Seg) (v' : Own) :
    transform pol repr (.commit c) fn (g :: p) = .ok v' ↔ ∃ c', v' = .commit c' ∧
      ∃ n', Edited fn (g :: p) (some (viewOf repr (.commit c))) n' ∧ CommitNode n' c' ∧
        CommitExtra (g :: p) n' := by
  rw [transform_commit_raw]
  refine exists_congr fun c' => and_congr Iff.rfl ?_
  have hl := commit_iterator repr c
  have hsub : (∃ n', Edited fn (g :: p) (some (viewOf repr (.commit c))) n' ∧ CommitNode n' c' ∧
      CommitExtra (g :: p) n') ↔
      ∃ es es', (viewOf repr (.commit c)).mapIterator = some es ∧
        EditMap (Edited fn p) g.string es es' ∧ CommitNode (.map es') c' ∧
        CommitExtra (g :: p) (.map es') := by
    constructor
    · rintro ⟨n', ⟨es, es', h1, h2, rfl⟩ | ⟨ns, -, -, h1, -⟩, h3, h4⟩
      · exact ⟨es, es', h1, h2, h3, h4⟩
      · rw [hl] at h1; cases h1
    · rintro ⟨es, es', h1, h2, h3, h4⟩
      exact ⟨_, Or.inl ⟨es, es', h1, h2, rfl⟩, h3, h4⟩
  rw [hsub]
  by_cases hdeep : (g.string = b!"author" ∨ g.string = b!"committer") ∧ p ≠ []
  · obtain ⟨hk, hp⟩ := hdeep
    obtain ⟨s, r, rfl⟩ := List.exists_cons_of_ne_nil hp
    have hR : commitR fn g.string (s :: r) = fun n v => ∃ v' q, Edited fn (s :: r) n v' ∧
        PersonNode v' q ∧ v = .own (.person q) := by
      funext n v
      unfold commitR
      rw [if_pos ⟨hk, hp⟩]
    rw [hR]
    refine exists_congr fun es => ?_
    constructor
    · rintro ⟨es', h1, h2, h3, h4⟩
      unfold EditMap at h2
      split at h2
      · rename_i hin
        obtain ⟨es1, i1, i2, i3⟩ := swap_typed h2
        refine ⟨es1, h1, by unfold EditMap; rw [if_pos hin]; exact i1,
          (typed_commitNode hk i2 c').1 h3, ?_⟩
        intro es2 he2
        cases he2
        obtain ⟨x1, x2, x3⟩ := h4 es' rfl
        refine ⟨?_, ?_⟩
        · intro k v hv
          obtain ⟨v', m1, m2⟩ := typed_mem' i2 k v hv
          rcases m2 with rfl | ⟨-, q, hq, -⟩
          · exact x1 k _ m1
          · rintro rfl
            exact personNode_absent q hq
        · intro k v hk2 hv
          obtain ⟨v', m1, m2⟩ := typed_mem' i2 k v hv
          rcases m2 with rfl | ⟨hkk, -⟩
          · left
            rcases hk2 with rfl | rfl
            · exact x2 _ m1
            · exact x3 _ m1
          · exact .inr ⟨g, s, r, rfl, hkk.symm⟩
      · obtain ⟨v', ⟨_, _, h, -⟩, -⟩ := h2
        exact h.elim
    · rintro ⟨es1, h1, h2, h3, h4⟩
      unfold EditMap at h2
      split at h2
      · rename_i hin
        have hpn : ∀ v, (g.string, v) ∈ es1 → ∃ q, PersonNode v q := by
          obtain ⟨es0, h0, k0, a1, a2, a3, a4, a5, -⟩ := h3
          cases h0
          intro v hv
          have hne := (h4 es1 rfl).1 _ v hv
          rcases hk with hk | hk
          · rw [hk] at hv
            rcases a4.2 v hv with ⟨h, -⟩ | ⟨a, ha, -⟩
            · exact absurd h hne
            · exact ⟨a, ha⟩
          · rw [hk] at hv
            rcases a5.2 v hv with ⟨h, -⟩ | ⟨a, ha, -⟩
            · exact absurd h hne
            · exact ⟨a, ha⟩
        obtain ⟨es', i1, i2, i3⟩ := typed_swap h2 hpn
        refine ⟨es', h1, by unfold EditMap; rw [if_pos hin]; exact i2,
          (typed_commitNode hk i1 c').2 h3, ?_⟩
        intro es2 he2
        cases he2
        obtain ⟨x1, x2⟩ := h4 es1 rfl
        have hown : ∀ k v, (k = b!"author" ∨ k = b!"committer") → (k, v) ∈ es' →
            ∃ q, v = .own (.person q) := by
          intro k v hk2 hv
          by_cases hkk : k = g.string
          · subst hkk
            exact i3 v hv
          · obtain ⟨v1, m1, m2⟩ := typed_mem i1 k v hv
            rcases m2 with rfl | ⟨h, -⟩
            · rcases x2 k _ hk2 m1 with h | ⟨g', s', r', h, h'⟩
              · exact h
              · cases h
                exact absurd h'.symm hkk
            · exact absurd h hkk
        refine ⟨?_, fun v hv => hown _ v (.inl rfl) hv, fun v hv => hown _ v (.inr rfl) hv⟩
        intro k v hv
        obtain ⟨v1, m1, m2⟩ := typed_mem i1 k v hv
        rcases m2 with rfl | ⟨-, q, -, rfl⟩
        · exact x1 k _ m1
        · exact fun h => by cases h
      · obtain ⟨v', h, -⟩ := h2
        exact h.elim
  · have hR : commitR fn g.string p = Edited fn p := by
      funext n v
      unfold commitR
      rw [if_neg hdeep]
    rw [hR]
    refine exists_congr fun es => exists_congr fun es' => and_congr Iff.rfl (and_congr Iff.rfl
      (and_congr Iff.rfl ?_))
    constructor
    · intro h es0 h0
      cases h0
      obtain ⟨x1, x2, x3⟩ := h es' rfl
      refine ⟨x1, fun k v hk hv => .inl ?_⟩
      rcases hk with rfl | rfl
      · exact x2 v hv
      · exact x3 v hv
    · intro h es0 h0
      cases h0
      obtain ⟨x1, x2⟩ := h es' rfl
      have hown : ∀ k v, (k = b!"author" ∨ k = b!"committer") → (k, v) ∈ es' →
          ∃ q, v = .own (.person q) := by
        intro k v hk hv
        rcases x2 k v hk hv with h | ⟨g', s', r', h, h'⟩
        · exact h
        · cases h
          exact absurd ⟨by rw [h']; exact hk, by simp⟩ hdeep
      exact ⟨x1, fun v hv => hown _ v (.inl rfl) hv, fun v hv => hown _ v (.inr rfl) hv⟩

end Verif.Props
