import Verif.Proofs.ResetActs
import Verif.Proofs.TreeForeign
import Verif.Spec.TreeReset

/-! Tree builders whose memory differs only in where it is behave alike. -/

namespace Verif.Handles

open Calls Spec

variable {lo δ : Nat}

/-- Tables that differ only in where they are. -/
def TabR (lo δ n : Nat) (t t' : Slice) : Prop :=
  lo ≤ t.arr ∧ t.arr < n ∧ t'.arr = t.arr + δ ∧ t'.len = t.len ∧ t'.cap = t.cap

/-- Maps to entries that differ only in where they are. -/
def MapR (lo δ n : Nat) (m m' : Option (List (Bytes × Ptr))) : Prop :=
  match m, m' with
  | none, none => True
  | some m, some m' => m' = m.map (fun x => (x.1, (x.2.1 + δ, x.2.2))) ∧ ∀ x ∈ m, lo ≤ x.2.1 ∧ x.2.1 < n
  | _, _ => False

/-- Tree assemblers that differ only in where things are. -/
structure TrR (lo δ : Nat) (s s' : TreeSt) : Prop where
  mem : MemR lo δ s.mem s'.mem
  mark : s'.mark = s.mark
  tab : TabR lo δ s.mem.next s.tab s'.tab
  map : MapR lo δ s.mem.next s.map s'.map
  state : s'.state = s.state
  cm : s'.cm = s.cm
  kw : PlaceR lo δ s.mem.next s.kw s'.kw
  va : ObjR lo δ s.mem.next s.va s'.va

def TGoes (lo δ : Nat) (a a' b b' : TreeSt) : Prop := TrR lo δ b b' ∧ Step lo δ a.mem a'.mem b.mem b'.mem

def TOutR (lo δ : Nat) (a a' : TreeSt) : TreeRes → TreeRes → Prop
  | .ok b, .ok b' => TGoes lo δ a a' b b'
  | .err e b, .err e' b' => e = e' ∧ TGoes lo δ a a' b b'
  | .panic, .panic => True
  | .noHandle, _ => True
  | _, _ => False

theorem tgoes_refl {a a' : TreeSt} (h : TrR lo δ a a') : TGoes lo δ a a' a a' := ⟨h, step_refl h.mem⟩

theorem tgoes_trans {a a' b b' c c' : TreeSt} (h : TGoes lo δ a a' b b') (h' : TGoes lo δ b b' c c') :
    TGoes lo δ a a' c c' := ⟨h'.1, step_trans h.2 h'.2⟩

theorem toutR_trans {a a' b b' : TreeSt} {o o' : TreeRes} (h : TGoes lo δ a a' b b') (ho : TOutR lo δ b b' o o') :
    TOutR lo δ a a' o o' := by
  cases o <;> cases o' <;> first | exact ho.elim | trivial | exact tgoes_trans h ho | exact ⟨ho.1, tgoes_trans h ho.2⟩

theorem mapR_mono {n n' : Nat} (hn : n ≤ n') {m m' : Option (List (Bytes × Ptr))} (h : MapR lo δ n m m') :
    MapR lo δ n' m m' := by
  cases m <;> cases m' <;> first | exact h | skip
  exact ⟨h.1, fun x hx => ⟨(h.2 x hx).1, Nat.lt_of_lt_of_le (h.2 x hx).2 hn⟩⟩

theorem tabR_mono {n n' : Nat} (hn : n ≤ n') {t t' : Slice} (h : TabR lo δ n t t') : TabR lo δ n' t t' :=
  ⟨h.1, Nat.lt_of_lt_of_le h.2.1 hn, h.2.2⟩

theorem last_r {s s' : TreeSt} (h : TrR lo δ s s') (i : Nat) : PtrR lo δ s.mem.next (s.last i) (s'.last i) := by
  refine ⟨h.tab.1, h.tab.2.1, ?_⟩
  unfold TreeSt.last
  rw [h.tab.2.2.1, h.tab.2.2.2.1]

theorem items_r {μ μ' : Mem} (h : MemR lo δ μ μ') {r : Nat} (h1 : lo ≤ r) (h2 : r < μ.next) :
    (TreeSt.items μ r).length = (TreeSt.items μ' (r + δ)).length ∧
    ∀ (i : Nat) (x x' : MVal), (TreeSt.items μ r)[i]? = some x → (TreeSt.items μ' (r + δ))[i]? = some x' →
      ValR lo δ μ.next x x' := by
  unfold TreeSt.items
  have := h.at' r h1 h2
  generalize μ.at' r = v at this ⊢
  generalize μ'.at' (r + δ) = v' at this ⊢
  cases this with
  | arr hl hh => exact ⟨hl, hh⟩
  | _ => exact ⟨rfl, by intro i x x' h; cases h⟩

theorem row_r {n : Nat} (r : Row) : ValR lo δ n (rowM r) (rowM r) := by
  refine .struct rfl (listR_cons (.text _) (listR_cons ?_ (by intro i x x' h; cases h)))
  exact .struct rfl (listR_cons (.text _) (listR_cons (.link _) (by intro i x x' h; cases h)))

theorem append_r {s s' : TreeSt} (grow : Nat → Nat) (r : Row) (h : TrR lo δ s s') :
    TGoes lo δ s s' (s.append grow (rowM r)) (s'.append grow (rowM r)) := by
  obtain ⟨hl, hh⟩ := items_r h.mem h.tab.1 h.tab.2.1
  obtain ⟨h1, h2, h3, h4, h5⟩ := h.tab
  unfold TreeSt.append
  dsimp only
  rw [h3, h4, h5]
  by_cases hc : s.tab.len < s.tab.cap
  · rw [if_pos hc, if_pos hc]
    have hst := step_write h.mem (p := (s.tab.arr, [])) (p' := (s.tab.arr + δ, [])) ⟨h1, h2, rfl⟩
      (.arr (by simp [hl]) (listR_append (by simp [hl]) (listR_take s.tab.len hh)
        (listR_cons (row_r r) (listR_drop (s.tab.len + 1) hh))))
    exact ⟨⟨hst.mem, h.mark, ⟨h1, h2, rfl, rfl, rfl⟩, h.map, h.state, h.cm, h.kw, h.va⟩, hst⟩
  · rw [if_neg hc, if_neg hc]
    have hst := step_alloc h.mem (x := .arr ((TreeSt.items s.mem s.tab.arr).take s.tab.len ++ [rowM r]))
      (x' := .arr ((TreeSt.items s'.mem (s.tab.arr + δ)).take s.tab.len ++ [rowM r]))
      (.arr (by simp [hl]) (listR_append (by simp [hl]) (listR_take s.tab.len hh)
        (listR_cons (row_r r) (by intro i x x' h; cases h))))
    exact ⟨⟨hst.mem, h.mark, ⟨h.mem.low, Nat.lt_succ_self _, h.mem.next, rfl, rfl⟩, mapR_mono hst.mono h.map, h.state,
      h.cm, placeR_mono hst.mono h.kw, objR_mono hst.mono h.va⟩, hst⟩

theorem tready_r {s s' : TreeSt} (h : TrR lo δ s s') :
    (s.ready = none ∧ s'.ready = none) ∨ ∃ t t', s.ready = some t ∧ s'.ready = some t' ∧ TGoes lo δ s s' t t' := by
  unfold TreeSt.ready
  rw [h.state]
  cases s.state with
  | initial => exact .inr ⟨s, s', rfl, rfl, tgoes_refl h⟩
  | midValue =>
    unfold TreeSt.tidyValue
    dsimp only
    rw [h.cm]
    by_cases hc : s.cm = .value
    · rw [if_pos hc, if_pos hc]
      exact .inr ⟨_, _, rfl, rfl, ⟨h.mem, h.mark, h.tab, h.map, rfl, rfl, h.kw,
        objR_reset (objR_park _ _ h.va)⟩, step_refl h.mem⟩
    · rw [if_neg hc, if_neg hc]
      exact .inl ⟨rfl, rfl⟩
  | _ => exact .inl ⟨rfl, rfl⟩

theorem has_r {n : Nat} {m m' : Option (List (Bytes × Ptr))} (h : MapR lo δ n m m') (k : Bytes) :
    TreeSt.has (m'.getD []) k = TreeSt.has (m.getD []) k := by
  cases m <;> cases m' <;> first | exact h.elim | rfl | skip
  rename_i m m'
  obtain ⟨rfl, _⟩ := h
  simp only [Option.getD_some, TreeSt.has, List.any_map]
  rfl

theorem map_cons {n : Nat} {m m' : List (Bytes × Ptr)} (h : MapR lo δ n (some m) (some m')) (k : Bytes) {p p' : Ptr}
    (hp : PtrR lo δ n p p') : MapR lo δ n (some ((k, p) :: m)) (some ((k, p') :: m')) := by
  obtain ⟨h1, h2⟩ := h
  obtain ⟨h3, h4, h5⟩ := hp
  refine ⟨by rw [h1, h5]; rfl, fun x hx => ?_⟩
  rcases List.mem_cons.1 hx with rfl | hx
  · exact ⟨h3, h4⟩
  · exact h2 x hx

theorem tassembleEntry_r {s s' : TreeSt} (grow : Nat → Nat) (k : Bytes) (h : TrR lo δ s s') :
    TOutR lo δ s s' (s.assembleEntry grow k) (s'.assembleEntry grow k) := by
  unfold TreeSt.assembleEntry
  rcases tready_r h with ⟨h1, h2⟩ | ⟨t, t', h1, h2, ht⟩
  · rw [h1, h2]; trivial
  · rw [h1, h2]
    dsimp only
    refine toutR_trans ht ?_
    rw [has_r ht.1.map]
    split
    · exact ⟨rfl, tgoes_refl ht.1⟩
    · have ha := append_r grow (k, Row.zero.2) ht.1
      generalize t.append grow (rowM (k, Row.zero.2)) = u at ha ⊢
      generalize t'.append grow (rowM (k, Row.zero.2)) = u' at ha ⊢
      have hm := ha.1.map
      cases hu : u.map <;> cases hu' : u'.map <;> rw [hu, hu'] at hm <;> first | exact hm.elim | trivial | skip
      have hl := last_r ha.1 1
      exact ⟨⟨ha.1.mem, ha.1.mark, ha.1.tab, map_cons hm k hl, rfl, ha.1.cm, ha.1.kw,
        objR_lend (w := some (u.last 1)) (w' := some (u'.last 1)) (m := .parent) (m' := .parent) hl trivial rfl _ _ ha.1.va⟩, ha.2⟩

theorem tassembleKey_r {s s' : TreeSt} (grow : Nat → Nat) (h : TrR lo δ s s') :
    TOutR lo δ s s' (s.assembleKey grow) (s'.assembleKey grow) := by
  unfold TreeSt.assembleKey
  rcases tready_r h with ⟨h1, h2⟩ | ⟨t, t', h1, h2, ht⟩
  · rw [h1, h2]; trivial
  · rw [h1, h2]
    dsimp only
    refine toutR_trans ht ?_
    have ha := append_r grow Row.zero ht.1
    exact ⟨⟨ha.1.mem, ha.1.mark, ha.1.tab, ha.1.map, rfl, ha.1.cm, last_r ha.1 0, ha.1.va⟩, ha.2⟩

theorem tkeyAssign_r {s s' : TreeSt} (k : Bytes) (h : TrR lo δ s s') :
    TOutR lo δ s s' (s.keyAssign k) (s'.keyAssign k) := by
  unfold TreeSt.keyAssign
  rw [h.cm]
  split
  · trivial
  · have hk := h.kw
    cases hw : s.kw <;> cases hw' : s'.kw <;> rw [hw, hw'] at hk <;> first | exact hk.elim | trivial | skip
    have hst := step_write h.mem hk (.text k)
    exact ⟨⟨hst.mem, h.mark, h.tab, h.map, h.state, rfl, hk, h.va⟩, hst⟩

theorem tassembleValue_r {s s' : TreeSt} (h : TrR lo δ s s') :
    TOutR lo δ s s' s.assembleValue s'.assembleValue := by
  unfold TreeSt.assembleValue
  rw [h.state]
  cases s.state with
  | midKey =>
    dsimp only
    rw [h.cm]
    split
    · have hl := last_r h 0
      have hr := read_r h.mem hl
      have hm := h.map
      generalize s.mem.read (s.last 0) = v at hr ⊢
      generalize s'.mem.read (s'.last 0) = v' at hr ⊢
      cases hr with
      | text b =>
        cases hu : s.map <;> cases hu' : s'.map <;> rw [hu, hu'] at hm <;> first | exact hm.elim | trivial | skip
        have hl := last_r h 1
        exact ⟨⟨h.mem, h.mark, h.tab, map_cons hm b hl, rfl, rfl, trivial,
          objR_lend (w := some (s.last 1)) (w' := some (s'.last 1)) (m := .parent) (m' := .parent) hl trivial rfl _ _ h.va⟩,
          step_refl h.mem⟩
      | _ => trivial
    · trivial
  | expectValue => exact ⟨⟨h.mem, h.mark, h.tab, h.map, rfl, h.cm, h.kw, h.va⟩, step_refl h.mem⟩
  | _ => trivial

theorem tfinish_r {s s' : TreeSt} (h : TrR lo δ s s') : TOutR lo δ s s' s.finish s'.finish := by
  unfold TreeSt.finish
  rcases tready_r h with ⟨h1, h2⟩ | ⟨t, t', h1, h2, ht⟩
  · rw [h1, h2]; trivial
  · rw [h1, h2]
    exact toutR_trans ht ⟨⟨ht.1.mem, rfl, ht.1.tab, ht.1.map, rfl, ht.1.cm, ht.1.kw, ht.1.va⟩, step_refl ht.1.mem⟩

theorem tbeginMap_r {s s' : TreeSt} (hint : Int) (h : TrR lo δ s s') :
    TOutR lo δ s s' (s.beginMap hint) (s'.beginMap hint) := by
  unfold TreeSt.beginMap
  rw [h.mark]
  split
  · have hst := step_alloc h.mem (x := .arr []) (x' := .arr []) (.arr rfl (by intro i x x' h; cases h))
    exact ⟨⟨hst.mem, rfl, ⟨h.mem.low, Nat.lt_succ_self _, h.mem.next, rfl, rfl⟩, ⟨rfl, by intro x hx; cases hx⟩, h.state,
      h.cm, placeR_mono hst.mono h.kw, objR_mono hst.mono h.va⟩, hst⟩
  · trivial

theorem kept_r {s s' : TreeSt} (grow : Nat → Nat) (hint : Int) (c : Call) (h : TrR lo δ s s') :
    TOutR lo δ s s' (TreeBuilder.kept grow hint s c) (TreeBuilder.kept grow hint s' c) := by
  cases c with
  | assembleEntry k => exact tassembleEntry_r grow k h
  | assembleKey => exact tassembleKey_r grow h
  | keyAssign k => exact tkeyAssign_r k h
  | keyAssignOther => exact ⟨rfl, tgoes_refl h⟩
  | assembleValue => exact tassembleValue_r h
  | finish => exact tfinish_r h
  | beginMap => exact tbeginMap_r hint h
  | beginList x => exact ⟨rfl, tgoes_refl h⟩
  | assignNull =>
    unfold TreeBuilder.kept TreeSt.call
    dsimp only
    rw [h.mark]
    split
    · exact ⟨rfl, tgoes_refl h⟩
    · trivial
  | assignOther => exact ⟨rfl, tgoes_refl h⟩
  | assignString x => exact ⟨rfl, tgoes_refl h⟩
  | assignLink x => exact ⟨rfl, tgoes_refl h⟩
  | assignSelf u v => trivial

theorem mapR_isSome {n : Nat} {m m' : Option (List (Bytes × Ptr))} (h : MapR lo δ n m m') : m'.isSome = m.isSome := by
  cases m <;> cases m' <;> first | exact h.elim | rfl

/-- Without the map assembler there is no call on it. -/
theorem call_kept (grow : Nat → Nat) (hint : Int) (s : TreeSt) (c : Call) :
    s.call grow hint c = TreeBuilder.kept grow hint s c ∨
    (s.map.isSome = false ∧ s.call grow hint c = .noHandle) := by
  cases hm : s.map.isSome with
  | true =>
    refine .inl ?_
    cases c <;> simp only [TreeSt.call, TreeBuilder.kept, hm, if_true]
  | false =>
    cases c <;> simp only [TreeSt.call, TreeBuilder.kept, hm, Bool.false_eq_true, if_false] <;> simp

theorem tcall_r {s s' : TreeSt} (grow : Nat → Nat) (hint : Int) (c : Call) (h : TrR lo δ s s') :
    TOutR lo δ s s' (s.call grow hint c) (s'.call grow hint c) := by
  have hk := kept_r grow hint c h
  have hm := mapR_isSome h.map
  cases hs : s.map.isSome with
  | true =>
    rw [hs] at hm
    rcases call_kept grow hint s c with h1 | ⟨h1, _⟩
    · rcases call_kept grow hint s' c with h2 | ⟨h2, _⟩
      · rw [h1, h2]; exact hk
      · rw [hm] at h2; cases h2
    · rw [hs] at h1; cases h1
  | false =>
    rw [hs] at hm
    cases c <;> first | exact hk | skip
    all_goals
      simp only [TreeSt.call, hs, Bool.false_eq_true, if_false]
      trivial

theorem deedEntry_r {a a' : St} (repr : Bool) (grow : Nat → Nat) (q : List Nat) (d : Deed) (h : StR lo δ a a') :
    OutR lo δ a a' (TreeBuilder.deedEntry repr grow q d a) (TreeBuilder.deedEntry repr grow q d a') := by
  have hc := deedAt_r repr grow q d h
  have same : TreeBuilder.unmarked q a.obj = TreeBuilder.unmarked q a'.obj →
      OutR lo δ a a' (TreeBuilder.deedEntry repr grow q d a) (TreeBuilder.deedEntry repr grow q d a') := by
    intro hu
    unfold TreeBuilder.deedEntry
    rw [hu]
    split
    · exact withoutMark_r hc
    · exact hc
  rcases at_r q h.obj with ⟨h1, h2⟩ | ⟨k, k', h1, h2, hk⟩
  · exact same (by simp only [TreeBuilder.unmarked, h1, h2])
  · by_cases hg : k.given = true ∨ k.begun = true
    · refine same ?_
      simp only [TreeBuilder.unmarked, h1, h2]
      cases hk with
      | mk _ _ h3 => exact h3 hg
    · have hn : deedAt repr grow q d a = .noHandle := deedAt_none h1 hg
      unfold TreeBuilder.deedEntry
      rw [hn]
      split
      · cases d with
        | call c => cases c <;> trivial
        | node n => cases n <;> trivial
      · trivial

theorem withEntry_r {s s' : TreeSt} {act act' : St → Out} (h : TrR lo δ s s')
    (ha : ∀ a a', StR lo δ a a' → OutR lo δ a a' (act a) (act' a')) :
    TOutR lo δ s s' (s.withEntry act) (s'.withEntry act') := by
  have hc := ha ⟨s.mem, s.cm, s.va⟩ ⟨s'.mem, s'.cm, s'.va⟩ ⟨h.mem, h.cm, h.va⟩
  unfold TreeSt.withEntry
  generalize act ⟨s.mem, s.cm, s.va⟩ = o at hc ⊢
  generalize act' ⟨s'.mem, s'.cm, s'.va⟩ = o' at hc ⊢
  have key : ∀ {x x' : St}, Goes lo δ ⟨s.mem, s.cm, s.va⟩ ⟨s'.mem, s'.cm, s'.va⟩ x x' →
      TGoes lo δ s s' { s with mem := x.mem, cm := x.mark, va := x.obj }
        { s' with mem := x'.mem, cm := x'.mark, va := x'.obj } := fun hg =>
    ⟨⟨hg.1.mem, h.mark, tabR_mono hg.2.mono h.tab, mapR_mono hg.2.mono h.map, h.state, hg.1.mark,
      placeR_mono hg.2.mono h.kw, hg.1.obj⟩, hg.2⟩
  cases o <;> cases o' <;> first | exact hc.elim | trivial | skip
  · exact key hc
  · exact ⟨hc.1, key hc.2⟩

theorem tandThen_r {s s' : TreeSt} {o o' : TreeRes} {f f' : TreeSt → TreeRes} (h : TOutR lo δ s s' o o')
    (hf : ∀ t t', TrR lo δ t t' → TOutR lo δ t t' (f t) (f' t')) : TOutR lo δ s s' (o.andThen f) (o'.andThen f') := by
  cases o <;> cases o' <;> first | exact h.elim | exact h | skip
  exact toutR_trans h (hf _ _ h.1)

theorem assignRows_r (repr : Bool) (grow : Nat → Nat) (es : Ents) {s s' : TreeSt} (h : TrR lo δ s s') :
    TOutR lo δ s s' (s.assignRows repr grow es) (s'.assignRows repr grow es) := by
  match es with
  | .nil => exact tfinish_r h
  | .cons k n r =>
    unfold TreeSt.assignRows
    exact tandThen_r (tandThen_r (tandThen_r (tandThen_r (tassembleKey_r grow h) fun t t' ht => tkeyAssign_r k ht)
      fun t t' ht => tassembleValue_r ht) fun t t' ht => withEntry_r ht fun a a' ha => nd_r repr grow n a a' ha)
      fun t t' ht => assignRows_r repr grow r ht

theorem assignNode_r (repr : Bool) (grow : Nat → Nat) (n : Nd) {s s' : TreeSt} (h : TrR lo δ s s') :
    TOutR lo δ s s' (s.assignNode repr grow n) (s'.assignNode repr grow n) := by
  match n with
  | .null =>
    unfold TreeSt.assignNode
    rw [h.mark]
    split
    · exact ⟨rfl, tgoes_refl h⟩
    · trivial
  | .own _ _ n => exact assignNode_r repr grow n h
  | .map es => exact assignRows_r repr grow es h
  | .text _ => exact ⟨rfl, tgoes_refl h⟩
  | .link _ => exact ⟨rfl, tgoes_refl h⟩
  | .list _ => exact ⟨rfl, tgoes_refl h⟩
  | .other => exact ⟨rfl, tgoes_refl h⟩

theorem entryM_r {n : Nat} (e : TreeEntry) : ValR lo δ n (entryM e) (entryM e) :=
  .struct rfl (listR_cons (.text _) (listR_cons (.link _) (by intro i x x' h; cases h)))

theorem same_r {α : Type} {n : Nat} {f : α → MVal} (hf : ∀ x, ValR lo δ n (f x) (f x)) (l : List α) :
    ValR lo δ n (.arr (l.map f)) (.arr (l.map f)) := by
  refine .arr rfl fun i x x' hx hx' => ?_
  rw [hx] at hx'
  cases hx'
  rw [List.getElem?_map, Option.map_eq_some_iff] at hx
  obtain ⟨y, _, rfl⟩ := hx
  exact hf y

theorem given_r {n r : Nat} (h1 : lo ≤ r) (h2 : r < n) (l : List (Bytes × TreeEntry)) (i : Nat) :
    MapR lo δ n (some (TreeSt.given r i l)) (some (TreeSt.given (r + δ) i l)) := by
  induction l generalizing i with
  | nil => exact ⟨rfl, by intro x hx; cases hx⟩
  | cons x l ih => exact map_cons (ih (i + 1)) x.1 (p := (r, [i])) (p' := (r + δ, [i])) ⟨h1, h2, rfl⟩

theorem assignTree_r (t : Tree) (room : Nat) {s s' : TreeSt} (h : TrR lo δ s s') :
    TOutR lo δ s s' (s.assignTree t room) (s'.assignTree t room) := by
  unfold TreeSt.assignTree
  rw [h.mark]
  split
  · have h1 := step_alloc h.mem (same_r (f := rowM) row_r t.t)
    have h2 := step_alloc h1.mem (same_r (f := fun x : Bytes × TreeEntry => entryM x.2) (fun x => entryM_r x.2) t.m)
    have hst := step_trans h1 h2
    refine ⟨⟨hst.mem, rfl, ⟨h.mem.low, ?_, h.mem.next, rfl, rfl⟩, ?_, h.state, h.cm, placeR_mono hst.mono h.kw,
      objR_mono hst.mono h.va⟩, hst⟩
    · show s.mem.next < s.mem.next + 1 + 1
      omega
    · have := given_r (lo := lo) (δ := δ) (n := s.mem.next + 1 + 1) (r := s.mem.next + 1)
        (Nat.le_succ_of_le h.mem.low) (Nat.lt_succ_self _) t.m 0
      have e : s'.mem.next + 1 = s.mem.next + 1 + δ := by rw [h.mem.next]; omega
      show MapR lo δ (s.mem.next + 1 + 1) (some (TreeSt.given (s.mem.next + 1) 0 t.m))
        (some (TreeSt.given (s'.mem.next + 1) 0 t.m))
      rw [e]
      exact this
  · trivial

theorem tdeedAt_r {b b' : TreeBuilder} (repr : Bool) (grow : Nat → Nat) (hint : Int) (q : List Nat) (d : TreeDeed)
    (hb : b.begun = true → b'.begun = true) (h : TrR lo δ b.st b'.st) :
    TOutR lo δ b.st b'.st (b.deedAt repr grow hint q d) (b'.deedAt repr grow hint q d) := by
  unfold TreeBuilder.deedAt
  match d, q with
  | .call c, [] =>
    dsimp only
    have hk := kept_r grow hint c h
    cases he : b.begun with
    | true => rw [hb he]; exact hk
    | false =>
      simp only [Bool.false_eq_true, if_false]
      split
      · rcases call_kept grow hint b.st c with h1 | ⟨_, h1⟩
        · rw [h1]; exact hk
        · rw [h1]; trivial
      · exact tcall_r grow hint c h
  | .call c, 0 :: q => exact withEntry_r h fun a a' ha => deedEntry_r repr grow q (.call c) ha
  | .node n, [] => exact assignNode_r repr grow n h
  | .node n, 0 :: q => exact withEntry_r h fun a a' ha => deedEntry_r repr grow q (.node n) ha
  | .tree t room, [] => exact assignTree_r t room h
  | .call _, (_ + 1) :: _ => trivial
  | .node _, (_ + 1) :: _ => trivial
  | .tree _ _, _ :: _ => trivial

theorem treset_r {b b' : TreeBuilder} (hb : b.begun = true → b'.begun = true) (h : TrR lo δ b.st b'.st) :
    (b.reset.begun = true → b'.reset.begun = true) ∧ TGoes lo δ b.st b'.st b.reset.st b'.reset.st := by
  refine ⟨?_, ?_⟩
  · unfold TreeBuilder.reset
    dsimp only
    rw [mapR_isSome h.map, Bool.or_eq_true, Bool.or_eq_true]
    exact fun hx => hx.imp hb id
  · have hst := step_alloc h.mem (x := .arr []) (x' := .arr []) (.arr rfl (by intro i x x' h; cases h))
    exact ⟨⟨hst.mem, rfl, ⟨h.mem.low, Nat.lt_succ_self _, h.mem.next, rfl, rfl⟩, trivial, rfl, rfl, trivial,
      clear_r (objR_mono hst.mono h.va)⟩, hst⟩

theorem actsTree_r {repr : Bool} {grow : Nat → Nat} {hint : Int} {a a' b : TreeBuilder} {l g : List TreeAct}
    (hb : a.begun = true → a'.begun = true) (h : TrR lo δ a.st a'.st)
    (ha : actsTree repr grow hint a l = some (b, g)) :
    ∃ b', actsTree repr grow hint a' l = some (b', g) ∧ (b.begun = true → b'.begun = true) ∧
      TGoes lo δ a.st a'.st b.st b'.st := by
  induction l generalizing a a' b g with
  | nil => cases ha; exact ⟨a', rfl, hb, tgoes_refl h⟩
  | cons x r ih =>
    cases x with
    | reset =>
      simp only [actsTree, Option.map_eq_some_iff] at ha
      obtain ⟨q, h1, h2⟩ := ha
      cases h2
      have hr := treset_r hb h
      obtain ⟨b', h3, h4, h5⟩ := ih hr.1 hr.2.1 h1
      exact ⟨b', by simp only [actsTree, h3, Option.map_some], h4, tgoes_trans hr.2 h5⟩
    | call p d =>
      have hc := tdeedAt_r repr grow hint p d hb h
      simp only [actsTree] at ha ⊢
      generalize a.deedAt repr grow hint p d = o at ha hc
      generalize a'.deedAt repr grow hint p d = o' at hc ⊢
      cases o with
      | ok a1 =>
        cases o' <;> first | exact hc.elim | skip
        simp only [Option.map_eq_some_iff] at ha
        obtain ⟨q, h1, h2⟩ := ha
        cases h2
        rename_i s'
        obtain ⟨b', h3, h4, h5⟩ := ih (a := ⟨a.begun, a1⟩) (a' := ⟨a'.begun, s'⟩) hb hc.1 h1
        exact ⟨b', by simp only [h3, Option.map_some], h4, tgoes_trans hc h5⟩
      | err e a1 =>
        cases o' <;> first | exact hc.elim | skip
        rename_i e' s'
        obtain ⟨b', h3, h4, h5⟩ := ih (a := ⟨a.begun, a1⟩) (a' := ⟨a'.begun, s'⟩) hb hc.2.1 ha
        exact ⟨b', h3, h4, tgoes_trans hc.2 h5⟩
      | panic => cases ha
      | noHandle => cases ha

/-! ## What trees show -/

theorem loadEntry_r {n : Nat} {v v' : MVal} (h : ValR lo δ n v v') : TreeSt.loadEntry v' = TreeSt.loadEntry v := by
  cases h <;> try rfl
  rename_i fs fs' hl hh
  match fs, fs', hl, hh with
  | [], [], _, _ => rfl
  | [x], [x'], _, hh =>
    have h1 := hh 0 x x' rfl rfl
    cases h1 <;> rfl
  | [x, y], [x', y'], _, hh =>
    have h1 := hh 0 x x' rfl rfl
    have h2 := hh 1 y y' rfl rfl
    cases h1 <;> cases h2 <;> rfl
  | x :: y :: _ :: _, x' :: y' :: _ :: _, _, hh =>
    have h1 := hh 0 x x' rfl rfl
    have h2 := hh 1 y y' rfl rfl
    cases h1 <;> cases h2 <;> rfl

theorem loadRow_r {n : Nat} {v v' : MVal} (h : ValR lo δ n v v') : TreeSt.loadRow v' = TreeSt.loadRow v := by
  cases h <;> try rfl
  rename_i fs fs' hl hh
  match fs, fs', hl, hh with
  | [], [], _, _ => rfl
  | [x], [x'], _, hh =>
    have h1 := hh 0 x x' rfl rfl
    cases h1 <;> rfl
  | [x, y], [x', y'], _, hh =>
    have h1 := hh 0 x x' rfl rfl
    have h2 := hh 1 y y' rfl rfl
    cases h1 <;> try rfl
    exact congrArg (Prod.mk _) (loadEntry_r h2)
  | x :: y :: _ :: _, x' :: y' :: _ :: _, _, hh =>
    have h1 := hh 0 x x' rfl rfl
    cases h1 <;> rfl

theorem shownTree_r {μ μ' : Mem} {m m' : Option (List (Bytes × Ptr))} {t t' : Slice} (h : MemR lo δ μ μ')
    (hm : MapR lo δ μ.next m m') (ht : TabR lo δ μ.next t t') : shownTree m' t' μ' = shownTree m t μ := by
  unfold shownTree
  obtain ⟨h1, h2, h3, h4, h5⟩ := ht
  obtain ⟨hl, hh⟩ := items_r h h1 h2
  rw [h3, h4]
  congr 1
  · cases m <;> cases m' <;> first | exact hm.elim | rfl | skip
    rename_i m m'
    obtain ⟨rfl, hx⟩ := hm
    simp only [Option.getD_some, List.map_map]
    refine List.map_congr_left fun x hm => ?_
    exact congrArg _ (loadEntry_r (read_r h ⟨(hx x hm).1, (hx x hm).2, rfl⟩))
  · exact (listR_map (by simp [hl]) (listR_take t.len hh) (fun v v' hv => (loadRow_r hv).symm)).symm

theorem tbuild_r {s s' : TreeSt} (h : TrR lo δ s s') : s'.build = s.build := by
  have := shownTree_r h.mem h.map h.tab
  unfold TreeSt.build
  rw [h.mark]
  split
  · exact congrArg Res.ok this
  · rfl

theorem tfresh_self : TrR 0 0 TreeSt.fresh TreeSt.fresh :=
  ⟨⟨Nat.zero_le _, rfl, fun _ _ _ => .arr rfl (by intro i x x' h; cases h)⟩, rfl,
    ⟨Nat.le_refl _, Nat.zero_lt_one, rfl, rfl, rfl⟩, trivial, rfl, rfl, trivial, new_self⟩

theorem treset_self (b : TreeBuilder) : TrR b.st.mem.next 0 b.reset.st b.reset.st := by
  refine ⟨⟨Nat.le_succ _, rfl, fun r h1 h2 => ?_⟩, rfl, ⟨Nat.le_refl _, Nat.lt_succ_self _, rfl, rfl, rfl⟩, trivial,
    rfl, rfl, trivial, clear_self _⟩
  replace h2 : r < b.st.mem.next + 1 := h2
  have : r = b.st.mem.next := by omega
  subst this
  show ValR _ _ _ (if b.st.mem.next = b.st.mem.next then _ else _)
    (if b.st.mem.next + 0 = b.st.mem.next then _ else _)
  rw [if_pos (Nat.add_zero _)]
  rw [if_pos rfl]
  exact .arr rfl (by intro i x x' h; cases h)

theorem tfresh_reset {z : Bool} {b : TreeBuilder} (h : Kin z (newObj (rank .treeEntry) .treeEntry) b.st.va) :
    TrR 0 b.st.mem.next TreeSt.fresh b.reset.st := by
  refine ⟨⟨Nat.zero_le _, Nat.add_comm _ _, fun r h1 h2 => ?_⟩, rfl,
    ⟨Nat.le_refl _, Nat.zero_lt_one, (Nat.zero_add _).symm, rfl, rfl⟩, trivial, rfl, rfl, trivial, new_clear h⟩
  replace h2 : r < 1 := h2
  have : r = 0 := by omega
  subst this
  show ValR _ _ _ _ (if 0 + b.st.mem.next = b.st.mem.next then _ else _)
  rw [if_pos (Nat.zero_add _)]
  exact .arr rfl (by intro i x x' h; cases h)

/-! ## The entry assembler stays what it is -/

theorem tready_kin {z : Bool} {s t : TreeSt} (h : s.ready = some t) : Kin z s.va t.va := by
  unfold TreeSt.ready at h
  cases hs : s.state <;> rw [hs] at h <;> first | cases h | skip
  · exact kin_refl _
  · dsimp only [TreeSt.tidyValue] at h
    split at h
    · cases h
      exact kin_trans (kin_park _) (kin_reset _)
    · cases h

theorem append_va (grow : Nat → Nat) (r : MVal) (s : TreeSt) : (s.append grow r).va = s.va := by
  unfold TreeSt.append
  dsimp only
  split <;> rfl

theorem kept_kin {z : Bool} (grow : Nat → Nat) (hint : Int) (s : TreeSt) (c : Call) :
    TAfter (TreeBuilder.kept grow hint s c) fun t => Kin z s.va t.va := by
  cases c with
  | assembleEntry k =>
    show TAfter (s.assembleEntry grow k) _
    unfold TreeSt.assembleEntry
    cases hr : s.ready with
    | none => trivial
    | some t =>
      have h := tready_kin (z := z) hr
      dsimp only
      split
      · exact h
      · split
        · trivial
        · have h1 := append_va grow (rowM (k, Row.zero.2)) t
          refine kin_trans h ?_
          show Kin z t.va (Obj.lend _ _ (t.append grow (rowM (k, Row.zero.2))).va)
          rw [h1]
          exact kin_lend rfl _
  | assembleKey =>
    show TAfter (s.assembleKey grow) _
    unfold TreeSt.assembleKey
    cases hr : s.ready with
    | none => trivial
    | some t =>
      have h := tready_kin (z := z) hr
      show Kin z s.va (t.append grow (rowM Row.zero)).va
      rw [append_va]
      exact h
  | keyAssign k =>
    show TAfter (s.keyAssign k) _
    unfold TreeSt.keyAssign
    split
    · trivial
    · split
      · trivial
      · exact kin_refl _
  | keyAssignOther => exact kin_refl _
  | assembleValue =>
    show TAfter s.assembleValue _
    unfold TreeSt.assembleValue
    split
    · split
      · split
        · exact kin_lend rfl _
        · trivial
      · trivial
    · exact kin_refl _
    · trivial
  | finish =>
    show TAfter s.finish _
    unfold TreeSt.finish
    cases hr : s.ready with
    | none => trivial
    | some t =>
      have h := tready_kin (z := z) hr
      exact h
  | beginMap =>
    show TAfter (s.beginMap hint) _
    unfold TreeSt.beginMap
    split
    · exact kin_refl _
    · trivial
  | beginList x => exact kin_refl _
  | assignNull =>
    show TAfter (if s.mark = .absent then .err .wrongKind s else .panic) _
    split
    · exact kin_refl _
    · trivial
  | assignOther => exact kin_refl _
  | assignString x => exact kin_refl _
  | assignLink x => exact kin_refl _
  | assignSelf u v => trivial

theorem tcall_kin {z : Bool} (grow : Nat → Nat) (hint : Int) (s : TreeSt) (c : Call) :
    TAfter (s.call grow hint c) fun t => Kin z s.va t.va := by
  rcases call_kept grow hint s c with h | ⟨_, h⟩
  · rw [h]; exact kept_kin grow hint s c
  · rw [h]; trivial

theorem withEntry_kin {z : Bool} {s : TreeSt} {act : St → Out}
    (h : After (act ⟨s.mem, s.cm, s.va⟩) fun a => Kin z s.va a.obj) :
    TAfter (s.withEntry act) fun t => Kin z s.va t.va := by
  unfold TreeSt.withEntry
  generalize act ⟨s.mem, s.cm, s.va⟩ = o at h ⊢
  cases o <;> exact h

theorem tafter_imp {o : TreeRes} {P Q : TreeSt → Prop} (h : TAfter o P) (hi : ∀ s, P s → Q s) : TAfter o Q := by
  cases o <;> first | exact hi _ h | trivial

theorem andThen_kin {z : Bool} {s : TreeSt} {o : TreeRes} {f : TreeSt → TreeRes}
    (h : TAfter o fun t => Kin z s.va t.va) (hf : ∀ t, TAfter (f t) fun u => Kin z t.va u.va) :
    TAfter (o.andThen f) fun t => Kin z s.va t.va := by
  cases o with
  | ok t => exact tafter_imp (hf t) fun u hu => kin_trans h hu
  | err e t => exact h
  | panic => trivial
  | noHandle => trivial

theorem assignRows_kin {z : Bool} (repr : Bool) (grow : Nat → Nat) (es : Ents) (s : TreeSt) :
    TAfter (s.assignRows repr grow es) fun t => Kin z s.va t.va := by
  match es with
  | .nil => exact kept_kin grow 0 s .finish
  | .cons k n r =>
    unfold TreeSt.assignRows
    refine andThen_kin (andThen_kin (andThen_kin (andThen_kin (kept_kin grow 0 s .assembleKey)
      fun t => kept_kin grow 0 t (.keyAssign k)) fun t => kept_kin grow 0 t .assembleValue) fun t => ?_)
      fun t => assignRows_kin repr grow r t
    exact withEntry_kin (after_imp (walk_nd (walk_kin repr grow) n _ trivial) fun _ h => h.2)

theorem assignNode_kin {z : Bool} (repr : Bool) (grow : Nat → Nat) (n : Nd) (s : TreeSt) :
    TAfter (s.assignNode repr grow n) fun t => Kin z s.va t.va := by
  match n with
  | .null =>
    unfold TreeSt.assignNode
    split
    · exact kin_refl _
    · trivial
  | .own _ _ n => exact assignNode_kin repr grow n s
  | .map es => exact assignRows_kin repr grow es s
  | .text _ => exact kin_refl _
  | .link _ => exact kin_refl _
  | .list _ => exact kin_refl _
  | .other => exact kin_refl _

theorem deedEntry_kin {z : Bool} {repr : Bool} {grow : Nat → Nat} {a : St} (q : List Nat) (d : Deed) :
    After (TreeBuilder.deedEntry repr grow q d a) fun a' => Kin z a.obj a'.obj := by
  have := deedAt_kin (z := z) (repr := repr) (grow := grow) (a := a) q d
  unfold TreeBuilder.deedEntry
  split
  · exact withoutMark_after this
  · exact this

theorem tdeedAt_kin {z : Bool} (repr : Bool) (grow : Nat → Nat) (hint : Int) (q : List Nat) (d : TreeDeed)
    (b : TreeBuilder) : TAfter (b.deedAt repr grow hint q d) fun t => Kin z b.st.va t.va := by
  match d, q with
  | .call c, [] =>
    show TAfter (if b.begun then TreeBuilder.kept grow hint b.st c else b.st.call grow hint c) _
    split
    · exact kept_kin grow hint _ c
    · exact tcall_kin grow hint _ c
  | .call c, 0 :: q => exact withEntry_kin (deedEntry_kin q (.call c))
  | .node n, [] => exact assignNode_kin repr grow n _
  | .node n, 0 :: q => exact withEntry_kin (deedEntry_kin q (.node n))
  | .tree t room, [] =>
    show TAfter (b.st.assignTree t room) _
    unfold TreeSt.assignTree
    split
    · exact kin_refl _
    · trivial
  | .call _, (_ + 1) :: _ => trivial
  | .node _, (_ + 1) :: _ => trivial
  | .tree _ _, _ :: _ => trivial

theorem actsTree_kin {repr : Bool} {grow : Nat → Nat} {hint : Int} {a b : TreeBuilder} {l g : List TreeAct}
    (h : actsTree repr grow hint a l = some (b, g)) : Kin false a.st.va b.st.va := by
  induction l generalizing a b g with
  | nil => cases h; exact kin_refl _
  | cons x r ih =>
    cases x with
    | reset =>
      simp only [actsTree, Option.map_eq_some_iff] at h
      obtain ⟨q, h1, h2⟩ := h
      cases h2
      exact kin_trans (kin_clear _) (ih h1)
    | call p d =>
      simp only [actsTree] at h
      have hk := tdeedAt_kin (z := false) repr grow hint p d a
      generalize a.deedAt repr grow hint p d = o at h hk
      cases o with
      | ok a1 =>
        simp only [Option.map_eq_some_iff] at h
        obtain ⟨q, h1, h2⟩ := h
        cases h2
        exact kin_trans hk (ih (a := ⟨a.begun, a1⟩) h1)
      | err e a1 => exact kin_trans hk (ih (a := ⟨a.begun, a1⟩) h)
      | panic => cases h
      | noHandle => cases h

/-- Before `Reset`, no assembler lacks a mark. -/
theorem tmarked {o : Obj} (h : Kin true (newObj (rank .treeEntry) .treeEntry) o) (q : List Nat) :
    TreeBuilder.unmarked q o = false := by
  unfold TreeBuilder.unmarked
  cases hk : o.at' q with
  | none => rfl
  | some k =>
    obtain ⟨k0, h1, h2⟩ := kin_at h hk
    rw [new_at h1] at h2
    dsimp only
    cases hn : k.m.isNil with
    | false => rfl
    | true => cases h2 hn

/-- Without `Reset`, a call is one of `TreeForeign`. -/
theorem deedAt_old {repr : Bool} {grow : Nat → Nat} {hint : Int} {s : TreeSt}
    (hk : Kin true (newObj (rank .treeEntry) .treeEntry) s.va) (q : List Nat) (d : TreeDeed) :
    TreeBuilder.deedAt repr grow hint q d ⟨false, s⟩ = s.deedAt repr grow hint q d := by
  have hd : ∀ q d, TreeBuilder.deedEntry repr grow q d ⟨s.mem, s.cm, s.va⟩ =
      deedAt repr grow q d ⟨s.mem, s.cm, s.va⟩ := by
    intro q d
    unfold TreeBuilder.deedEntry
    rw [tmarked hk]
    rfl
  match d, q with
  | .call c, [] => rfl
  | .call c, 0 :: q =>
    show TreeSt.withEntry (TreeBuilder.deedEntry repr grow q (.call c)) s = s.callAt repr grow hint (0 :: q) c
    unfold TreeSt.withEntry TreeSt.callAt
    rw [hd]
    rfl
  | .node n, [] => rfl
  | .node n, 0 :: q =>
    show TreeSt.withEntry (TreeBuilder.deedEntry repr grow q (.node n)) s = s.withEntry (assignAt repr grow n q)
    unfold TreeSt.withEntry
    rw [hd]
    rfl
  | .tree t room, [] => rfl
  | .call _, (_ + 1) :: _ => rfl
  | .node _, (_ + 1) :: _ => rfl
  | .tree _ _, _ :: _ => rfl

theorem runTree_acts {repr : Bool} {grow : Nat → Nat} {hint : Int} {s : TreeSt} (cs : List (List Nat × TreeDeed))
    (hk : Kin true (newObj (rank .treeEntry) .treeEntry) s.va) :
    (actsTree repr grow hint ⟨false, s⟩ (cs.map fun x => .call x.1 x.2)).map (fun p => p.1.st) =
      runTreeDeeds repr grow hint s cs := by
  induction cs generalizing s with
  | nil => rfl
  | cons x r ih =>
    obtain ⟨p, d⟩ := x
    have hc := deedAt_old (repr := repr) (grow := grow) (hint := hint) hk p d
    have hk' := tdeedAt_kin (z := true) repr grow hint p d ⟨false, s⟩
    simp only [List.map_cons, actsTree, runTreeDeeds]
    rw [hc] at hk' ⊢
    generalize s.deedAt repr grow hint p d = o at hk' ⊢
    cases o with
    | ok a1 =>
      dsimp only
      rw [← ih (kin_trans hk hk')]
      cases actsTree repr grow hint ⟨false, a1⟩ (r.map fun x => .call x.1 x.2) <;> rfl
    | err e a1 => exact ih (kin_trans hk hk')
    | panic => rfl
    | noHandle => rfl

/-- What a tree shows does not change with memory that it has nothing to do with. -/
theorem shownTree_keep {s : TreeSt} {ν : Mem} (h : TrR 0 0 s s) (hk : Keeps s.mem.next s.mem ν) :
    shownTree s.map s.tab ν = shownTree s.map s.tab s.mem := by
  have ht : TreeSt.items ν s.tab.arr = TreeSt.items s.mem s.tab.arr := by
    unfold TreeSt.items
    rw [hk.2 _ h.tab.2.1]
  unfold shownTree
  rw [ht]
  congr 1
  have hm := h.map
  cases hs : s.map with
  | none => rfl
  | some m =>
    rw [hs] at hm
    refine List.map_congr_left fun x hx => ?_
    unfold Mem.read
    rw [hk.2 _ (hm.2 x hx).2]

end Verif.Handles
