import Verif.Spec.TreeFeed
import Verif.Props.Feed
import Verif.Props.TreeHeap
import Verif.Model.TreeNode

/-!
# Trees given call by call: C71
-/

namespace Verif.Props

open Verif Spec Calls

theorem driveTree_append (pol : TreeAsm → Nat) (hint : Int) (a : TreeFrame) (xs ys : List (Nat × Call)) :
    driveTree pol hint a (xs ++ ys) = driveTree pol hint a xs >>= fun b => driveTree pol hint b ys := by
  induction xs generalizing a with
  | nil => rfl
  | cons x r ih =>
    obtain ⟨d, c⟩ := x
    simp only [List.cons_append, driveTree]
    cases a.callAt pol hint d c with
    | ok b => exact ih b
    | err e b => rfl
    | panic => rfl
    | noHandle => rfl

/-- In the middle of a value: the value assembler's mark is the tree's, and a complete
value is in the last row. -/
structure Mid (k : Bytes) (init : List Row) (a : TreeFrame) (ch : Frame) : Prop where
  inv : a.s.Inv
  state : a.s.state = .midValue
  va : a.s.va = some a.s.last
  child : a.child = some ch
  mark : a.s.cm = ch.m
  row : ∃ e, a.s.committed = init ++ [(k, e)] ∧ (ch.m = .value → e = entryOf ch.w)
  m : a.s.m ≠ .absent

theorem mid_sync {k : Bytes} {init : List Row} {a : TreeFrame} {ch ch' : Frame} (h : Mid k init a ch) :
    Mid k init (a.sync ch') ch' := by
  obtain ⟨e, he, -⟩ := h.row
  unfold TreeFrame.sync
  rw [h.va]
  dsimp only
  split
  · rename_i hv
    have hw : ({ a.s with cm := .absent } : TreeAsm).valueWrite (entryOf ch'.w) =
        .ok (({ a.s with cm := .absent } : TreeAsm).store a.s.last (fun r => (r.1, entryOf ch'.w))) := by
      unfold TreeAsm.valueWrite
      dsimp only
      rw [h.va]
    obtain ⟨i1, -, i3, -, i5, i6, i7, i8⟩ := TreeAsm.valueWrite_ok (TreeAsm.cm_inv h.inv _) hw
    have hr := i8 h.va init (k, e) he
    refine ⟨TreeAsm.cm_inv (s := TreeAsm.store _ _ _) i1 _, h.state, ?_, rfl, rfl, ⟨entryOf ch'.w, hr, fun _ => rfl⟩, h.m⟩
    exact h.va
  · rename_i hv
    exact ⟨TreeAsm.cm_inv h.inv _, h.state, h.va, rfl, rfl, ⟨e, he, fun h => absurd h hv⟩, h.m⟩

theorem driveTree_deeper (pol : TreeAsm → Nat) (hint : Int) {k : Bytes} {init : List Row}
    (cs : List (Nat × Call)) (a : TreeFrame) (ch : Frame) (h : Mid k init a ch) :
    match drive ch cs with
    | .ok ch' => ∃ a', driveTree pol hint a (deeper cs) = .ok a' ∧ Mid k init a' ch'
    | .err e => driveTree pol hint a (deeper cs) = .err e
    | .panic => driveTree pol hint a (deeper cs) = .panic := by
  induction cs generalizing a ch with
  | nil => exact ⟨a, rfl, h⟩
  | cons x r ih =>
    obtain ⟨d, c⟩ := x
    simp only [deeper, List.map_cons, drive, driveTree, TreeFrame.callAt, h.child]
    cases ch.callAt d c with
    | ok ch' => exact ih _ ch' (mid_sync h)
    | err e b => rfl
    | panic => rfl
    | noHandle => rfl

theorem entryOf_val (e : TreeEntry) : entryOf (treeEntryVal e) = e := rfl

/-- The calls of one value. -/
theorem driveTree_value (pol : TreeAsm → Nat) (hint : Int) {k : Bytes} {init : List Row} {a : TreeFrame}
    (h : Mid k init a (fresh .treeEntry)) {n : Node} {cs : List (Nat × Call)} (hn : Feeds n cs) :
    (∃ e a', buildTreeEntry n = .ok e ∧ driveTree pol hint a (deeper cs) = .ok a' ∧ Between a'.s ∧
      a'.s.committed = init ++ [(k, e)] ∧ a'.s.m ≠ .absent) ∨
    (∃ e, buildTreeEntry n = .err e ∧ driveTree pol hint a (deeper cs) = .err e) := by
  have h1 := driveTree_deeper pol hint cs a _ h
  have h2 := agree_treeEntry False n cs hn
  unfold Matches at h2
  have hb : buildTreeEntry n = treeEntryStruct.child (some ⟨[], .nil⟩) n := rfl
  rw [← hb] at h2
  split at h2
  · rename_i e he
    obtain ⟨ch, h3, h4, h5⟩ := h2
    rw [h3] at h1
    obtain ⟨a', h6, h7⟩ := h1
    left
    obtain ⟨e', h8, h9⟩ := h7.row
    have := h9 h4
    rw [h5, entryOf_val] at this
    subst this
    refine ⟨e', a', he, h6, ⟨h7.inv, map_of_committed h7.inv h8, .inr ⟨h7.state, h7.mark.trans h4⟩⟩, h8, h7.m⟩
  · rename_i e he
    rw [h2] at h1
    exact .inr ⟨e, he, h1⟩
  · exact h2.elim

/-- Between entries of a tree that holds `rows`. -/
structure Holds (rows : List Row) (a : TreeFrame) : Prop where
  between : Between a.s
  rows : a.s.committed = rows
  m : a.s.m ≠ .absent

theorem Holds.isSome {rows : List Row} {a : TreeFrame} (h : Holds rows a) : a.s.map.isSome = true :=
  Option.isSome_iff_ne_none.2 h.between.2.1

theorem begin_entry (pol : TreeAsm → Nat) (hint : Int) {rows : List Row} {a : TreeFrame} (h : Holds rows a) (k : Bytes) :
    (k ∈ rows.map Prod.fst ∧ ∃ a', a.callAt pol hint 0 (.assembleEntry k) = .err .repeatedKey a') ∨
    (k ∉ rows.map Prod.fst ∧ ∃ a', a.callAt pol hint 0 (.assembleEntry k) = .ok a' ∧
      Mid k rows a' (fresh .treeEntry)) := by
  obtain ⟨s0, hr, hcm0, hm0⟩ := between_ready h.between
  have hi := h.between.1
  unfold TreeFrame.callAt TreeFrame.call
  dsimp only
  rw [if_pos h.isSome]
  cases hs : a.s.assembleEntry pol k with
  | ok s1 =>
    obtain ⟨h1, h2, h3, h4, h5, h6, h7⟩ := TreeAsm.assembleEntry_ok hi hs
    rw [h.rows] at h2 h3
    exact .inr ⟨h2, _, rfl, h1, h4, h5, rfl, (h6 s0 hr).trans hcm0, ⟨_, h3, nofun⟩, h7 ▸ h.m⟩
  | err e s1 =>
    obtain ⟨h1, h2, rfl, -⟩ := TreeAsm.assembleEntry_err hi hs
    exact .inl ⟨h.rows ▸ h2, _, rfl⟩
  | panic =>
    obtain ⟨s', h1, -⟩ := item_ok pol a.s h.between (.entry k [] Row.zero.2)
    unfold runItem at h1
    dsimp only at h1
    rw [show a.s.step pol (.assembleEntry k) = _ from hs] at h1
    cases h1

theorem begin_keyed (pol : TreeAsm → Nat) (hint : Int) {rows : List Row} {a : TreeFrame} (h : Holds rows a) (k : Bytes)
    (cs : List (Nat × Call)) :
    ∃ a', driveTree pol hint a ((0, .assembleKey) :: (0, .keyAssign k) :: (0, .assembleValue) :: cs) =
      driveTree pol hint a' cs ∧ Mid k rows a' (fresh .treeEntry) := by
  obtain ⟨s0, hr, hcm0, hm0⟩ := between_ready h.between
  have hi := h.between.1
  have hs : ∃ s1, a.s.assembleKey pol = .ok s1 := by
    unfold TreeAsm.assembleKey
    rw [hr]
    exact ⟨_, rfl⟩
  obtain ⟨s1, hs1⟩ := hs
  obtain ⟨i1, c1, t1, k1, l1, m1, mm1, mp1⟩ := TreeAsm.assembleKey_ok hi hs1
  have hcm1 : s1.cm = .absent := (m1 s0 hr).trans hcm0
  have hs : ∃ s2, s1.keyAssign k = .ok s2 := by
    unfold TreeAsm.keyAssign
    rw [hcm1, k1]
    exact ⟨_, rfl⟩
  obtain ⟨s2, hs2⟩ := hs
  obtain ⟨i2, c2, t2, cm2, mm2, mp2, l2, v2⟩ := TreeAsm.keyAssign_ok i1 hs2
  obtain ⟨v, hv⟩ := v2 k1 l1
  have hs : ∃ s3, s2.assembleValue = .ok s3 := by
    unfold TreeAsm.assembleValue
    rw [t2]
    dsimp only
    rw [if_pos cm2, hv, List.getLast?_concat]
    dsimp only
    unfold TreeAsm.put
    dsimp only
    rw [mp2, mp1]
    cases hm : a.s.map with
    | none => exact absurd hm h.between.2.1
    | some mm => exact ⟨_, rfl⟩
  obtain ⟨s3, hs3⟩ := hs
  obtain ⟨i3, c3, t3, mm3, q3⟩ := TreeAsm.assembleValue_ok i2 hs3
  obtain ⟨cm3, va3⟩ := q3 t2
  rw [hv, c1, h.rows] at c3
  refine ⟨⟨s3, some (fresh .treeEntry)⟩, ?_, i3, t3, va3, rfl, cm3, ⟨v, c3, nofun⟩, ?_⟩
  · simp only [driveTree, TreeFrame.callAt, TreeFrame.call, h.isSome, if_true, hs1, TreeFrame.ret,
      show s1.map.isSome = true from mp1 ▸ h.isSome, hs2,
      show s2.map.isSome = true from mp2 ▸ mp1 ▸ h.isSome, hs3]
  · show s3.m ≠ .absent
    rw [mm3, mm2, mm1]; exact h.m

/-- What the entries add to the rows, or the first error. -/
def treeRows : List Row → List TreeGiven → Res (List Row)
  | rows, [] => .ok rows
  | rows, g :: r =>
    if g.byEntry = true ∧ g.key ∈ rows.map Prod.fst then .err .repeatedKey
    else do
      let e ← buildTreeEntry g.node
      treeRows (rows ++ [(g.key, e)]) r

theorem driveTree_entries (pol : TreeAsm → Nat) (hint : Int) {gs : List TreeGiven} {cs : List (Nat × Call)}
    (hg : FeedsTree gs cs) (rows : List Row) (a : TreeFrame) (h : Holds rows a) :
    (∃ rows' a', treeRows rows gs = .ok rows' ∧ driveTree pol hint a cs = .ok a' ∧ Holds rows' a') ∨
    (∃ e, treeRows rows gs = .err e ∧ driveTree pol hint a cs = .err e) := by
  induction hg generalizing rows a with
  | nil => exact .inl ⟨rows, a, rfl, rfl, h⟩
  | @entry k n gs c cs hn _ ih =>
    rcases begin_entry pol hint h k with ⟨hk, a', ha⟩ | ⟨hk, a', ha, hm⟩
    · right
      refine ⟨_, by rw [treeRows, if_pos ⟨rfl, hk⟩], ?_⟩
      simp only [driveTree, ha]
    · have hd : driveTree pol hint a ((0, .assembleEntry k) :: (deeper c ++ cs)) =
          driveTree pol hint a' (deeper c) >>= fun b => driveTree pol hint b cs := by
        rw [← driveTree_append]
        simp only [driveTree, ha]
      rw [hd, treeRows, if_neg (fun h => hk h.2)]
      rcases driveTree_value pol hint hm hn with ⟨e, b, h1, h2, h3, h4, h5⟩ | ⟨e, h1, h2⟩
      · dsimp only
        rw [h1, h2, Res.bind_ok, Res.bind_ok]
        exact ih _ b ⟨h3, h4, h5⟩
      · right
        dsimp only
        rw [h1, h2]
        exact ⟨e, rfl, rfl⟩
  | @keyed k n gs c cs hn _ ih =>
    obtain ⟨a', ha, hm⟩ := begin_keyed pol hint h k (deeper c ++ cs)
    rw [ha, driveTree_append, treeRows, if_neg (fun h => nomatch h.1)]
    rcases driveTree_value pol hint hm hn with ⟨e, b, h1, h2, h3, h4, h5⟩ | ⟨e, h1, h2⟩
    · dsimp only
      rw [h1, h2, Res.bind_ok, Res.bind_ok]
      exact ih _ b ⟨h3, h4, h5⟩
    · right
      dsimp only
      rw [h1, h2]
      exact ⟨e, rfl, rfl⟩


/-! ## What the entries come to -/

/-- As `EntriesNew`, with the keys given so far. -/
def newFrom (ks : List Bytes) : List TreeGiven → Prop
  | [] => True
  | g :: r => (g.byEntry = true → g.key ∉ ks) ∧ newFrom (ks ++ [g.key]) r

theorem newFrom_iff (ks : List Bytes) (gs : List TreeGiven) :
    newFrom ks gs ↔ ∀ before g after, gs = before ++ g :: after → g.byEntry = true →
      g.key ∉ ks ++ before.map TreeGiven.key := by
  induction gs generalizing ks with
  | nil =>
    refine ⟨fun _ b g a h => ?_, fun _ => trivial⟩
    cases b <;> cases h
  | cons x r ih =>
    rw [newFrom, ih]
    constructor
    · rintro ⟨h1, h2⟩ b g a h hg
      cases b with
      | nil =>
        cases h
        rw [List.map_nil, List.append_nil]; exact h1 hg
      | cons y b =>
        cases h
        have := h2 b g a rfl hg
        rwa [List.append_assoc] at this
    · intro h
      refine ⟨fun hg => ?_, fun b g a he hg => ?_⟩
      · have := h [] x r rfl hg
        rwa [List.map_nil, List.append_nil] at this
      · have := h (x :: b) g a (by rw [he]; rfl) hg
        rwa [List.append_assoc]

theorem entriesNew_iff (gs : List TreeGiven) : EntriesNew gs ↔ newFrom [] gs := by
  rw [newFrom_iff]
  rfl

theorem treeRows_ok (rows : List Row) (gs : List TreeGiven) (rows' : List Row) :
    treeRows rows gs = .ok rows' ↔
      ∃ added, rows' = rows ++ added ∧ RowsOf gs added ∧ newFrom (rows.map Prod.fst) gs := by
  induction gs generalizing rows with
  | nil =>
    constructor
    · intro h
      cases h
      exact ⟨[], (List.append_nil _).symm, ⟨rfl, trivial⟩, trivial⟩
    · rintro ⟨added, rfl, ⟨h1, -⟩, -⟩
      rw [List.map_nil, List.map_eq_nil_iff] at h1
      rw [h1, List.append_nil]; rfl
  | cons g r ih =>
    rw [treeRows]
    constructor
    · intro h
      split at h
      · cases h
      · rename_i hk
        obtain ⟨e, h1, h2⟩ := Res.bind_eq_ok.1 h
        obtain ⟨added, h3, ⟨h4, h5⟩, h6⟩ := (ih _).1 h2
        refine ⟨(g.key, e) :: added, by rw [h3, List.append_assoc]; rfl,
          ⟨by rw [List.map_cons, List.map_cons, h4], ?_⟩, fun hg hm => hk ⟨hg, hm⟩, ?_⟩
        · exact ⟨(build_treeEntry _ _).1 h1, h5⟩
        · rwa [List.map_append] at h6
    · rintro ⟨added, h1, ⟨h2, h3⟩, h4, h5⟩
      cases added with
      | nil => cases h2
      | cons x added =>
        obtain ⟨k, e⟩ := x
        simp only [List.map_cons, List.cons.injEq] at h2
        obtain ⟨rfl, h2⟩ := h2
        rw [if_neg (fun h => h4 h.1 h.2)]
        rw [show buildTreeEntry g.node = .ok e from (build_treeEntry _ _).2 h3.1, Res.bind_ok]
        refine (ih _).2 ⟨added, by rw [h1, List.append_assoc]; rfl, ⟨h2, h3.2⟩, ?_⟩
        rwa [List.map_append]

theorem mapGet_built {s : TreeAsm} (h : s.Inv) (k : Bytes) : mapGet s.built.m k = s.lookup k := by
  unfold TreeAsm.built TreeAsm.lookup
  dsimp only
  have hd : ∀ p, TreeAsm.get s.map k = some p → ∃ r, s.deref p = some r := fun p hp => by
    obtain ⟨r, hr, -⟩ := h.hit k p hp
    exact ⟨r, hr⟩
  cases hm : s.map with
  | none => rfl
  | some mm =>
    rw [hm] at hd
    clear hm
    show mapGet (mm.filterMap _) k = _
    induction mm with
    | nil => rfl
    | cons x mm ih =>
      obtain ⟨k', p⟩ := x
      rw [TreeAsm.get_put] at hd ⊢
      rw [List.filterMap_cons]
      dsimp only
      by_cases hk : k' = k
      · rw [if_pos hk] at hd ⊢
        obtain ⟨r, hr⟩ := hd p rfl
        rw [hr]
        dsimp only [Option.map_some, Option.bind_some]
        rw [mapGet, if_pos hk, hr]; rfl
      · rw [if_neg hk] at hd ⊢
        cases hr : s.deref p with
        | none => exact ih hd
        | some r =>
          dsimp only [Option.map_some]
          rw [mapGet, if_neg hk]
          exact ih hd

theorem treeLookup_built {t : Tree} {k : Bytes} {rows : List Row} (h : mapGet t.m k = lastFor rows k) :
    treeLookup t k = (lastFor rows k).elim (.err .notExists) .ok := by
  unfold treeLookup
  rw [h]
  cases lastFor rows k <;> rfl

/-- The whole: a fresh builder, the map, and `Build`. -/
theorem buildTree_rows (pol : TreeAsm → Nat) (hint : Int) {gs : List TreeGiven} {cs : List (Nat × Call)}
    (hg : FeedsTree gs cs) :
    (∃ t, treeRows [] gs = .ok t.t ∧ buildTreeBy pol hint ((0, .beginMap) :: (cs ++ [(0, .finish)])) = .ok t ∧
      ∀ k, mapGet t.m k = lastFor t.t k) ∨
    (∃ e, treeRows [] gs = .err e ∧ buildTreeBy pol hint ((0, .beginMap) :: (cs ++ [(0, .finish)])) = .err e) := by
  obtain ⟨a0, ha0, h0⟩ : ∃ a0, TreeFrame.fresh.callAt pol hint 0 .beginMap = .ok a0 ∧ Holds [] a0 :=
    ⟨_, rfl, ⟨TreeAsm.beginMap_inv TreeAsm.fresh_inv rfl, (fun h => by cases h), .inl ⟨rfl, rfl⟩⟩, rfl,
      (fun h => by cases h)⟩
  unfold buildTreeBy
  simp only [driveTree, ha0]
  rw [driveTree_append]
  rcases driveTree_entries pol hint hg [] a0 h0 with ⟨rows, a, h1, h2, h3⟩ | ⟨e, h1, h2⟩
  · left
    obtain ⟨s2, hr, -, -⟩ := between_ready h3.between
    have hf : ∃ s', a.s.finish = .ok s' := by
      unfold TreeAsm.finish
      rw [hr]
      exact ⟨_, rfl⟩
    obtain ⟨s', hf⟩ := hf
    obtain ⟨i1, i2, i3, -, i5, i6⟩ := TreeAsm.finish_ok h3.between.1 hf
    have hrows : s'.table = rows := by rw [← i6, i2, h3.rows]
    refine ⟨s'.built, by rw [h1]; exact congrArg Res.ok hrows.symm, ?_, fun k => ?_⟩
    · rw [h2]
      simp only [Res.bind_ok, driveTree, TreeFrame.callAt, TreeFrame.call, h3.isSome, if_true, hf, TreeFrame.ret,
        TreeFrame.build, i5]
    · rw [mapGet_built i1, i1.lookup, i6]
      rfl
  · right
    exact ⟨e, h1, by rw [h2]; rfl⟩

/-- Entries given call by call to a tree builder build a tree with these rows just if
every node given denotes the entry in its row and no key given to `AssembleEntry` was
given before. The entry looked up by a name is that of the last row with the name. -/
theorem calls_build_tree (pol : TreeAsm → Nat) (hint : Int) {gs : List TreeGiven} {cs : List (Nat × Call)}
    (hg : FeedsTree gs cs) (rows : List Row) :
    (∃ t, buildTreeBy pol hint ((0, .beginMap) :: (cs ++ [(0, .finish)])) = .ok t ∧ t.t = rows) ↔
      RowsOf gs rows ∧ EntriesNew gs := by
  have key := treeRows_ok [] gs rows
  rw [entriesNew_iff]
  rcases buildTree_rows pol hint hg with ⟨t, h1, h2, -⟩ | ⟨e, h1, h2⟩
  · constructor
    · rintro ⟨u, h, rfl⟩
      rw [h2] at h
      cases h
      obtain ⟨added, ha, hb, hc⟩ := key.1 h1
      rw [List.nil_append] at ha
      exact ⟨ha ▸ hb, hc⟩
    · rintro ⟨hb, hc⟩
      have := key.2 ⟨rows, rfl, hb, hc⟩
      rw [h1] at this
      cases this
      exact ⟨t, h2, rfl⟩
  · constructor
    · rintro ⟨u, h, -⟩
      rw [h2] at h
      cases h
    · rintro ⟨hb, hc⟩
      have := key.2 ⟨rows, rfl, hb, hc⟩
      rw [h1] at this
      cases this

theorem calls_tree_lookup (pol : TreeAsm → Nat) (hint : Int) {gs : List TreeGiven} {cs : List (Nat × Call)}
    (hg : FeedsTree gs cs) {t : Tree}
    (ht : buildTreeBy pol hint ((0, .beginMap) :: (cs ++ [(0, .finish)])) = .ok t) (k : Bytes) :
    treeLookup t k = (lastFor t.t k).elim (.err .notExists) .ok := by
  rcases buildTree_rows pol hint hg with ⟨u, -, h2, h3⟩ | ⟨e, -, h2⟩
  · rw [ht] at h2
    cases h2
    exact treeLookup_built (h3 k)
  · rw [ht] at h2
    cases h2

theorem treeRows_err (rows : List Row) (gs : List TreeGiven) (e : Err) :
    treeRows rows gs = .err e ↔
      ∃ before g after added, gs = before ++ g :: after ∧ RowsOf before added ∧
        newFrom (rows.map Prod.fst) before ∧
        ((g.byEntry = true ∧ g.key ∈ rows.map Prod.fst ++ before.map TreeGiven.key ∧ e = .repeatedKey) ∨
         (¬ (g.byEntry = true ∧ g.key ∈ rows.map Prod.fst ++ before.map TreeGiven.key) ∧
          buildTreeEntry g.node = .err e)) := by
  induction gs generalizing rows with
  | nil =>
    constructor
    · intro h; cases h
    · rintro ⟨b, g, a, -, h, -⟩
      cases b <;> cases h
  | cons g r ih =>
    rw [treeRows]
    constructor
    · intro h
      split at h
      · rename_i hk
        cases h
        exact ⟨[], g, r, [], rfl, ⟨rfl, trivial⟩, trivial, .inl ⟨hk.1, by simpa using hk.2, rfl⟩⟩
      · rename_i hk
        cases hb : buildTreeEntry g.node with
        | ok x =>
          rw [hb, Res.bind_ok] at h
          obtain ⟨b, g', a, added, h1, h2, h3, h4⟩ := (ih _).1 h
          refine ⟨g :: b, g', a, (g.key, x) :: added, by rw [h1]; rfl,
            ⟨by rw [List.map_cons, List.map_cons, h2.1], (build_treeEntry _ _).1 hb, h2.2⟩,
            ⟨fun h1 h2 => hk ⟨h1, h2⟩, by rwa [List.map_append] at h3⟩, ?_⟩
          rw [List.map_append, List.append_assoc] at h4
          exact h4
        | err x =>
          rw [hb] at h
          cases h
          exact ⟨[], g, r, [], rfl, ⟨rfl, trivial⟩, trivial, .inr ⟨by simpa using hk, hb⟩⟩
        | panic =>
          rw [hb] at h
          cases h
    · rintro ⟨b, g', a, added, h1, h2, h3, h4⟩
      cases b with
      | nil =>
        cases h1
        simp only [List.map_nil, List.append_nil] at h4
        rcases h4 with ⟨h5, h6, rfl⟩ | ⟨h5, h6⟩
        · rw [if_pos ⟨h5, h6⟩]
        · rw [if_neg h5, h6]; rfl
      | cons y b =>
        cases h1
        cases added with
        | nil => cases h2.1
        | cons z added =>
          obtain ⟨k, x⟩ := z
          obtain ⟨h5, h6, h7⟩ := h2
          simp only [List.map_cons, List.cons.injEq] at h5
          obtain ⟨rfl, h5⟩ := h5
          rw [if_neg (fun h => h3.1 h.1 h.2), (build_treeEntry _ _).2 h6, Res.bind_ok]
          refine (ih _).2 ⟨b, g', a, added, rfl, ⟨h5, h7⟩, by rw [List.map_append]; exact h3.2, ?_⟩
          rw [List.map_append, List.append_assoc]
          exact h4

/-- The calls stop with the error of the first entry that is not good: that of the key
repeated, or that with which a tree entry builder refuses the value. -/
theorem calls_tree_error (pol : TreeAsm → Nat) (hint : Int) {gs : List TreeGiven} {cs : List (Nat × Call)}
    (hg : FeedsTree gs cs) (e : Err) :
    buildTreeBy pol hint ((0, .beginMap) :: (cs ++ [(0, .finish)])) = .err e ↔
      ∃ before g after rows, gs = before ++ g :: after ∧ RowsOf before rows ∧ EntriesNew before ∧
        ((g.byEntry = true ∧ g.key ∈ before.map TreeGiven.key ∧ e = .repeatedKey) ∨
         (¬ (g.byEntry = true ∧ g.key ∈ before.map TreeGiven.key) ∧
          ∃ c, Feeds g.node c ∧ buildBy .treeEntry c = .err e)) := by
  have hfeed : ∀ {gs : List TreeGiven} {cs : List (Nat × Call)}, FeedsTree gs cs → ∀ g ∈ gs, ∃ c, Feeds g.node c := by
    intro gs cs h
    induction h with
    | nil => intro g hg; cases hg
    | entry hn _ ih =>
      intro g hg
      rcases List.mem_cons.1 hg with rfl | hg
      · exact ⟨_, hn⟩
      · exact ih g hg
    | keyed hn _ ih =>
      intro g hg
      rcases List.mem_cons.1 hg with rfl | hg
      · exact ⟨_, hn⟩
      · exact ih g hg
  have hsame : ∀ {n : Node} {c : List (Nat × Call)}, Feeds n c →
      (buildTreeEntry n = .err e ↔ buildBy .treeEntry c = .err e) := by
    intro n c hn
    have h := (agree_same (agree_treeEntry False) hn).1
    rw [h, show treeEntryStruct.child (some ⟨[], .nil⟩) n = buildTreeEntry n from rfl]
    cases buildTreeEntry n with
    | ok v => exact ⟨(fun h => by cases h), (fun h => by cases h)⟩
    | err x => exact ⟨(fun h => by cases h; rfl), (fun h => by cases h; rfl)⟩
    | panic => exact ⟨(fun h => by cases h), (fun h => by cases h)⟩
  have key : buildTreeBy pol hint ((0, .beginMap) :: (cs ++ [(0, .finish)])) = .err e ↔ treeRows [] gs = .err e := by
    rcases buildTree_rows pol hint hg with ⟨t, h1, h2, -⟩ | ⟨x, h1, h2⟩
    · rw [h1, h2]; exact ⟨(fun h => by cases h), (fun h => by cases h)⟩
    · rw [h1, h2]; exact ⟨(fun h => by cases h; rfl), (fun h => by cases h; rfl)⟩
  rw [key, treeRows_err]
  constructor
  · rintro ⟨b, g, a, rows, h1, h2, h3, h4⟩
    refine ⟨b, g, a, rows, h1, h2, (entriesNew_iff _).2 h3, ?_⟩
    rcases h4 with h4 | ⟨h4, h5⟩
    · exact .inl h4
    · obtain ⟨c, hc⟩ := hfeed hg g (by rw [h1]; simp)
      exact .inr ⟨h4, c, hc, (hsame hc).1 h5⟩
  · rintro ⟨b, g, a, rows, h1, h2, h3, h4⟩
    refine ⟨b, g, a, rows, h1, h2, (entriesNew_iff _).1 h3, ?_⟩
    rcases h4 with h4 | ⟨h4, c, hc, h5⟩
    · exact .inl h4
    · exact .inr ⟨h4, (hsame hc).2 h5⟩

/-! ## Foreign data -/

theorem feedsMap_given {es : List (Bytes × Node)} {cs : List (Nat × Call)} (h : FeedsMap es cs) :
    ∃ gs, FeedsTree gs cs ∧ gs.map TreeGiven.key = es.map Prod.fst ∧ gs.map TreeGiven.node = es.map Prod.snd := by
  induction es generalizing cs with
  | nil => cases h; exact ⟨[], .nil, rfl, rfl⟩
  | cons x es ih =>
    cases h with
    | cons hn hf hr =>
      obtain ⟨gs, h1, h2, h3⟩ := ih hr
      cases hn with
      | entry => exact ⟨_, .entry hf h1, by rw [List.map_cons, h2]; rfl, by rw [List.map_cons, h3]; rfl⟩
      | keyValue => exact ⟨_, .keyed hf h1, by rw [List.map_cons, h2]; rfl, by rw [List.map_cons, h3]; rfl⟩

/-- No data given call by call makes a tree builder panic, and a tree is built from
maps only. -/
theorem calls_tree_never_panic (pol : TreeAsm → Nat) (hint : Int) {n : Node} {cs : List (Nat × Call)}
    (h : Feeds n cs) :
    buildTreeBy pol hint cs ≠ .panic ∧
    (n.mapIterator = none → buildTreeBy pol hint cs = .err .wrongKind) := by
  cases h with
  | map hm =>
    refine ⟨?_, fun h => by cases h⟩
    obtain ⟨gs, hg, -⟩ := feedsMap_given hm
    rcases buildTree_rows pol hint hg with ⟨t, -, h2, -⟩ | ⟨e, -, h2⟩ <;> rw [h2] <;> intro h <;> cases h
  | null => exact ⟨(fun h => by cases h), fun _ => rfl⟩
  | bool => exact ⟨(fun h => by cases h), fun _ => rfl⟩
  | int => exact ⟨(fun h => by cases h), fun _ => rfl⟩
  | float => exact ⟨(fun h => by cases h), fun _ => rfl⟩
  | bytes => exact ⟨(fun h => by cases h), fun _ => rfl⟩
  | str => exact ⟨(fun h => by cases h), fun _ => rfl⟩
  | link => exact ⟨(fun h => by cases h), fun _ => rfl⟩
  | list hint' hl => exact ⟨(fun h => by cases h), fun _ => rfl⟩

theorem lastFor_mem {rows : List Row} (hd : (rows.map Prod.fst).Nodup) (k : Bytes) (e : TreeEntry) :
    lastFor rows k = some e ↔ (k, e) ∈ rows := by
  rw [lastFor_nodup hd]
  induction rows with
  | nil => exact ⟨(fun h => by cases h), (fun h => by cases h)⟩
  | cons r rows ih =>
    obtain ⟨k', e'⟩ := r
    simp only [List.map_cons, List.nodup_cons] at hd
    rw [List.find?_cons]
    by_cases hk : k' = k
    · subst hk
      simp only [decide_true, Option.map_some, Option.some.injEq, List.mem_cons, Prod.mk.injEq, true_and]
      constructor
      · intro h; exact .inl h.symm
      · rintro (h | h)
        · exact h.symm
        · exact absurd (List.mem_map_of_mem (f := Prod.fst) h) hd.1
    · simp only [hk, decide_false, List.mem_cons, Prod.mk.injEq]
      rw [ih hd.2]
      constructor
      · exact .inr
      · rintro (⟨h, -⟩ | h)
        · exact absurd h.symm hk
        · exact h

theorem nodup_new {gs : List TreeGiven} (h : (gs.map TreeGiven.key).Nodup) : EntriesNew gs := by
  rintro b g a rfl - hm
  rw [List.map_append, List.nodup_append] at h
  exact h.2.2 _ hm _ (List.mem_map_of_mem (List.mem_cons_self ..)) rfl

/-- Data with distinct names builds the tree that it denotes, while `AssignNode` of the
same data panics if there are any. -/
theorem calls_tree_distinct (pol : TreeAsm → Nat) (hint : Int) {es : List (Bytes × Node)} {cs : List (Nat × Call)}
    (h : Feeds (.map es) cs) (hd : (es.map Prod.fst).Nodup) (rows : List Row) :
    ((∃ t, buildTreeBy pol hint cs = .ok t ∧ t.t = rows ∧
        ∀ k e, treeLookup t k = .ok e ↔ (k, e) ∈ rows) ↔
      rows.map Prod.fst = es.map Prod.fst ∧ Each TreeEntryNode (es.map Prod.snd) (rows.map Prod.snd)) ∧
    (es ≠ [] → Proto.tree.assignNode pol (.map es) = .panic) := by
  refine ⟨?_, fun hne => ?_⟩
  · cases h with
    | map hm =>
      obtain ⟨gs, hg, hk, hn⟩ := feedsMap_given hm
      have key := calls_build_tree pol hint hg rows
      unfold RowsOf at key
      rw [hk, hn] at key
      constructor
      · rintro ⟨t, h1, h2, -⟩
        exact (key.1 ⟨t, h1, h2⟩).1
      · intro hr
        obtain ⟨t, h1, h2⟩ := key.2 ⟨hr, nodup_new (hk ▸ hd)⟩
        refine ⟨t, h1, h2, fun k e => ?_⟩
        rw [calls_tree_lookup pol hint hg h1 k, h2]
        rw [← hr.1] at hd
        clear h1 h2 key hr
        have hl : lastFor rows k = some e ↔ (k, e) ∈ rows := lastFor_mem hd k e
        rw [← hl]
        cases lastFor rows k with
        | none => exact ⟨(fun h => by cases h), (fun h => by cases h)⟩
        | some x => exact ⟨(fun h => by cases h; rfl), (fun h => by cases h; rfl)⟩
  · show (assignTree pol (.map es) >>= _) = _
    unfold assignTree
    dsimp only
    rw [tree_assign_map_panics pol (.map es) es rfl hne]
    rfl


theorem treeEntries (rows : List Row) :
    Data.entries (rows.map fun r => (r.1, entryData r.2)) = rows.map fun r => (r.1, (entryData r.2).node) := by
  induction rows with
  | nil => rfl
  | cons r rows ih => rw [List.map_cons, List.map_cons, Data.entries, ih]

/-- Whatever is read from a tree with distinct names, given call by call to a tree
builder, builds a tree with the same rows and the same lookups. -/
theorem rebuild_tree (pol : TreeAsm → Nat) (hint : Int) (t : Tree) (hd : (t.t.map Prod.fst).Nodup) {d : Data}
    (hr : Reads (Own.tree t).representation d) :
    (∃ cs, Feeds d.node cs) ∧ ∀ cs, Feeds d.node cs → ∃ u, buildTreeBy pol hint cs = .ok u ∧ u.t = t.t ∧
      ∀ k e, treeLookup u k = .ok e ↔ (k, e) ∈ t.t := by
  have hdata := reads_unique hr (reads_own true (.tree t))
  have hnode : d.node = .map (t.t.map fun r => (r.1, (entryData r.2).node)) := by
    rw [hdata]
    show Node.map (Data.entries _) = _
    rw [treeEntries]
  refine ⟨?_, fun cs hc => ?_⟩
  · refine feeds_of d ?_
    rw [hdata]
    show noAbsentIn (t.t.map fun r => (r.1, entryData r.2))
    refine noAbsentIn_of _ fun x hx => ?_
    obtain ⟨r, -, rfl⟩ := List.mem_map.1 hx
    exact conforms_noAbsent (t := .treeEntry) (conf_own true (.treeEntry r.2) fun u hu => by cases hu)
  · rw [hnode] at hc
    refine (calls_tree_distinct pol hint hc ?_ t.t).1.2 ⟨?_, ?_⟩
    · rw [List.map_map]; exact hd
    · rw [List.map_map]; rfl
    · rw [List.map_map]
      have : ∀ rows : List Row, Each TreeEntryNode (rows.map (Prod.snd ∘ fun r => (r.1, (entryData r.2).node)))
          (rows.map Prod.snd) := by
        intro rows
        induction rows with
        | nil => trivial
        | cons r rows ih => exact ⟨treeEntry_data r.2, ih⟩
      exact this t.t

/-! ## Cases -/

namespace TreeFeedExample

def node (m : Bytes) : Node := .map [(b!"mode", .str m), (b!"hash", .link .nil)]

theorem node_feeds (m : Bytes) : ∃ c, Feeds (node m) c :=
  ⟨_, .map (.cons .entry (.str _) (.cons .keyValue (.link _) .nil))⟩

/-- A name given twice, the second time to the key assembler. -/
def twice : List TreeGiven :=
  [⟨true, b!"a", node b!"100644"⟩, ⟨true, b!"b", node b!"40000"⟩, ⟨false, b!"a", node b!"100755"⟩]

def rows : List Row := [(b!"a", ⟨b!"100644", .nil⟩), (b!"b", ⟨b!"40000", .nil⟩), (b!"a", ⟨b!"100755", .nil⟩)]

theorem twice_rows : RowsOf twice rows :=
  ⟨rfl, treeEntry_data ⟨b!"100644", .nil⟩, treeEntry_data ⟨b!"40000", .nil⟩, treeEntry_data ⟨b!"100755", .nil⟩, trivial⟩

theorem twice_new : EntriesNew twice :=
  (entriesNew_iff _).2 ⟨fun _ => by decide, fun _ => by decide, (fun h => by cases h), trivial⟩

/-- C71: both rows are kept, and the later one is found. -/
example (pol : TreeAsm → Nat) : ∃ cs t, FeedsTree twice cs ∧
    buildTreeBy pol 0 ((0, .beginMap) :: (cs ++ [(0, .finish)])) = .ok t ∧ t.t = rows ∧
    treeLookup t b!"a" = .ok ⟨b!"100755", .nil⟩ ∧ treeLookup t b!"c" = .err .notExists := by
  obtain ⟨c1, h1⟩ := node_feeds b!"100644"
  obtain ⟨c2, h2⟩ := node_feeds b!"40000"
  obtain ⟨c3, h3⟩ := node_feeds b!"100755"
  have hg : FeedsTree twice _ := .entry h1 (.entry h2 (.keyed h3 .nil))
  obtain ⟨t, ht, hr⟩ := (calls_build_tree pol 0 hg rows).2 ⟨twice_rows, twice_new⟩
  refine ⟨_, t, hg, ht, hr, ?_, ?_⟩
  · rw [calls_tree_lookup pol 0 hg ht, hr]; rfl
  · rw [calls_tree_lookup pol 0 hg ht, hr]; rfl

/-- C71: the same name given twice to `AssembleEntry` is refused. -/
example (pol : TreeAsm → Nat) : ∃ cs, FeedsTree [⟨true, b!"a", node b!"100644"⟩, ⟨true, b!"a", node b!"40000"⟩] cs ∧
    buildTreeBy pol 0 ((0, .beginMap) :: (cs ++ [(0, .finish)])) = .err .repeatedKey := by
  obtain ⟨c1, h1⟩ := node_feeds b!"100644"
  obtain ⟨c2, h2⟩ := node_feeds b!"40000"
  refine ⟨_, .entry h1 (.entry h2 .nil), ?_⟩
  refine (calls_tree_error pol 0 (.entry h1 (.entry h2 .nil)) _).2
    ⟨[⟨true, b!"a", node b!"100644"⟩], _, [], [(b!"a", ⟨b!"100644", .nil⟩)], rfl, ⟨rfl, treeEntry_data ⟨b!"100644", .nil⟩, trivial⟩,
      (entriesNew_iff _).2 ⟨fun _ => by decide, trivial⟩, .inl ⟨rfl, by decide, rfl⟩⟩

/-- C71: a tree of two entries built again from what is read from it. -/
example (pol : TreeAsm → Nat) : ∃ d cs u, Reads (Own.tree ⟨[], rows.take 2⟩).representation d ∧ Feeds d.node cs ∧
    buildTreeBy pol 7 cs = .ok u ∧ u.t = rows.take 2 := by
  obtain ⟨⟨cs, hc⟩, h⟩ := rebuild_tree pol 7 ⟨[], rows.take 2⟩ (by decide) (reads_own true (.tree ⟨[], rows.take 2⟩))
  obtain ⟨u, h1, h2, -⟩ := h cs hc
  exact ⟨_, cs, u, reads_own true (.tree ⟨[], rows.take 2⟩), hc, h1, h2⟩

/-- C71: data that is not a map. -/
example (pol : TreeAsm → Nat) : buildTreeBy pol 0 [(0, .assignString b!"x")] = .err .wrongKind :=
  (calls_tree_never_panic pol 0 (.str b!"x")).2 rfl

end TreeFeedExample

end Verif.Props
