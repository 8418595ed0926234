import Verif.Proofs.Lookup
import Verif.Props.Tree
import Verif.Model.Builders

/-!
# C48, C49: lookups by path segment, index and node
-/

namespace Verif.Props

open Verif Spec

/-! ## C48 -/

/-- Following a path in a node of the package, typed or representation view,
succeeds exactly with the node that iteration finds at the end of that path. -/
theorem path_lookup (n : Node) (v : Own) (hn : NodeOf n v) (ha : Agree v) (p : List Seg) (m : Node) :
    n.walk p = .ok m ↔ Reach n p m :=
  walk_ok p n v hn ha m

/-- Every decoded object keeps map and table of a tree in agreement. -/
theorem decoded_agree (s : Stream) (o : Obj) (h : parseObject s = .ok o) : Agree o.own := by
  cases o with
  | tree t =>
    intro k e
    obtain ⟨rows, h1, h2, _, h4, _⟩ := tree_lookup_iteration s t h
    have h1 := h1 (treeLength t) (Nat.le_refl _)
    have h3 := treeItr_run t (treeLength t) 0 (by simp [treeLength])
    have hrows : rows = t.t := by
      rw [show treeIterator t = ⟨t, 0⟩ from rfl, h3] at h1
      simpa using h1.symm
    rw [← hrows, ← h4]
    unfold treeLookup
    cases mapGet t.m k <;> simp
  | _ => trivial

/-- Every decoded object keeps map and table of a tree in agreement, so paths in
decoded objects lead where iteration says. -/
theorem path_lookup_decoded (s : Stream) (o : Obj) (h : parseObject s = .ok o) (n : Node)
    (hn : NodeOf n o.own) (p : List Seg) (m : Node) :
    n.walk p = .ok m ↔ Reach n p m :=
  path_lookup n o.own hn (decoded_agree s o h) p m

/-- A lookup panics exactly when a segment stands for a negative number and the
path before it leads to a list. -/
theorem path_panics (n : Node) (v : Own) (hn : NodeOf n v) (ha : Agree v) (p : List Seg) :
    n.walk p = .panic ↔ ∃ a g b l xs i, p = a ++ g :: b ∧ Reach n a l ∧
      l.listIterator = some xs ∧ StandsFor g i ∧ i < 0 :=
  walk_panic p n v hn ha

/-- Without negative numbers in the path no lookup panics. The full claim, for
every path, is false: `path_negative_panics`. -/
theorem path_no_panic_partial (n : Node) (v : Own) (hn : NodeOf n v) (ha : Agree v) (p : List Seg)
    (h : ∀ g ∈ p, ∀ i, StandsFor g i → 0 ≤ i) : n.walk p ≠ .panic := by
  intro hp
  obtain ⟨a, g, b, l, xs, i, rfl, _, _, hi, hneg⟩ := (path_panics n v hn ha p).1 hp
  have := h g (by simp) i hi
  omega

/-- The path of the segments `parents` and `-1` panics on every commit, typed and representation view. -/
theorem path_negative_panics (c : Commit) :
    (Node.own (.commit c)).walk [.ofString b!"parents", .ofString b!"-1"] = .panic ∧
    (Node.repr (.commit c)).walk [.ofString b!"parents", .ofString b!"-1"] = .panic := by
  have key : ∀ l : List Link, (Own.linkList l).lookupIndex (-1) = .panic :=
    fun l => (lookupIndex_panic (.linkList l) (-1) rfl).2 (by decide)
  have keyr : ∀ l : List Link, (Own.linkList l).reprLookupIndex (-1) = .panic :=
    fun l => (reprLookupIndex_panic (.linkList l) (-1) rfl).2 (by decide)
  have ha : atoi b!"-1" = .ok (-1) := by decide +kernel
  constructor
  · show ((Own.linkList c.parents).lookupSegment (.ofString b!"-1") >>= fun n => Node.walk n []) = _
    show ((atoi b!"-1" >>= (Own.linkList c.parents).lookupIndex) >>= _) = _
    rw [ha, Res.bind_ok, key, Res.bind_panic]
  · show ((Own.linkList c.parents).reprLookupSegment (.ofString b!"-1") >>= fun n => Node.walk n []) = _
    show ((atoi b!"-1" >>= (Own.linkList c.parents).reprLookupIndex) >>= _) = _
    rw [ha, Res.bind_ok, keyr, Res.bind_panic]

/-- The entries that a list's `ListIterator()` reports, typed and representation
view: the loop ends without error, the indices are 0, 1, 2, ..., there are
`Length` of them, and `LookupByIndex` succeeds exactly with what was reported. -/
theorem list_iteration (v : Own) (h : v.kind = .list) :
    (∃ es, (∀ n : Nat, v.length ≤ (n : Int) → v.listLoop n = some (.ok es)) ∧
      es.map Prod.fst = (List.range es.length).map Int.ofNat ∧ (es.length : Int) = v.length ∧
      ∀ i m, v.lookupIndex i = .ok m ↔ (i, m) ∈ es) ∧
    (∃ es, (∀ n : Nat, v.length ≤ (n : Int) → v.reprListLoop n = some (.ok es)) ∧
      es.map Prod.fst = (List.range es.length).map Int.ofNat ∧ (es.length : Int) = v.length ∧
      ∀ i m, v.reprLookupIndex i = .ok m ↔ (i, m) ∈ es) := by
  have fsts : ∀ {α : Type} (g : α → Node) (x : List α) (k : Nat),
      ((x.zipIdx k).map fun p => ((p.2 : Int), g p.1)).map Prod.fst
        = (List.range' k x.length).map Int.ofNat := by
    intro α g x
    induction x with
    | nil => intro k; rfl
    | cons a x ih =>
      intro k
      rw [List.zipIdx_cons, List.map_cons, List.map_cons, ih, List.length_cons, List.range'_succ,
        List.map_cons]
      rfl
  have mem : ∀ {α : Type} (g : α → Node) (x : List α) (i : Int) (m : Node),
      (∃ n : Nat, i = n ∧ (x.map g)[n]? = some m) ↔
        (i, m) ∈ (x.zipIdx.map fun p => ((p.2 : Int), g p.1)) := by
    intro α g x i m
    simp only [List.mem_map, Prod.mk.injEq, Prod.exists, List.mem_zipIdx_iff_getElem?,
      List.getElem?_map, Option.map_eq_some_iff]
    constructor
    · rintro ⟨n, rfl, a, ha, rfl⟩
      exact ⟨a, n, ha, rfl, rfl⟩
    · rintro ⟨a, n, ha, rfl, rfl⟩
      exact ⟨n, rfl, a, ha, rfl⟩
  cases v <;> simp only [Own.kind, reduceCtorEq] at h
  case linkList x =>
    constructor
    · refine ⟨_, fun n hn => congrArg some (listItr_run .commitLink x n 0 (by simpa [Own.length] using hn)).1,
        ?_, by simp [Own.length], fun i m => ?_⟩
      · simpa [List.range_eq_range'] using fsts (fun a => Node.own (.commitLink a)) x 0
      · rw [lookupIndex_ok]; exact mem (fun a => Node.own (.commitLink a)) x i m
    · refine ⟨_, fun n hn => congrArg some (listItr_run .commitLink x n 0 (by simpa [Own.length] using hn)).2,
        ?_, by simp [Own.length], fun i m => ?_⟩
      · simpa [List.range_eq_range'] using fsts (fun a => (Own.commitLink a).representation) x 0
      · rw [reprLookupIndex_ok]; exact mem (fun a => (Own.commitLink a).representation) x i m
  case stringList x =>
    constructor
    · refine ⟨_, fun n hn => congrArg some (listItr_run .string x n 0 (by simpa [Own.length] using hn)).1,
        ?_, by simp [Own.length], fun i m => ?_⟩
      · simpa [List.range_eq_range'] using fsts (fun a => Node.own (.string a)) x 0
      · rw [lookupIndex_ok]; exact mem (fun a => Node.own (.string a)) x i m
    · refine ⟨_, fun n hn => congrArg some (listItr_run .string x n 0 (by simpa [Own.length] using hn)).2,
        ?_, by simp [Own.length], fun i m => ?_⟩
      · simpa [List.range_eq_range'] using fsts (fun a => (Own.string a).representation) x 0
      · rw [reprLookupIndex_ok]; exact mem (fun a => (Own.string a).representation) x i m
  case tagList x =>
    constructor
    · refine ⟨_, fun n hn => congrArg some (listItr_run .tag x n 0 (by simpa [Own.length] using hn)).1,
        ?_, by simp [Own.length], fun i m => ?_⟩
      · simpa [List.range_eq_range'] using fsts (fun a => Node.own (.tag a)) x 0
      · rw [lookupIndex_ok]; exact mem (fun a => Node.own (.tag a)) x i m
    · refine ⟨_, fun n hn => congrArg some (listItr_run .tag x n 0 (by simpa [Own.length] using hn)).2,
        ?_, by simp [Own.length], fun i m => ?_⟩
      · simpa [List.range_eq_range'] using fsts (fun a => (Own.tag a).representation) x 0
      · rw [reprLookupIndex_ok]; exact mem (fun a => (Own.tag a).representation) x i m

/-- The element lists used for `ListIterator` in the rest of the model are what
the iterators report. -/
theorem list_iteration_elems (v : Own) (h : v.kind = .list) (n : Nat) (hn : v.length ≤ (n : Int)) :
    (∃ es, v.listLoop n = some (.ok es) ∧ es.map Prod.snd = v.elems) ∧
    (∃ es, v.reprListLoop n = some (.ok es) ∧ es.map Prod.snd = v.reprElems) := by
  have snds : ∀ {α : Type} (g : α → Node) (x : List α) (k : Nat),
      ((x.zipIdx k).map fun p => ((p.2 : Int), g p.1)).map Prod.snd = x.map g := by
    intro α g x
    induction x with
    | nil => intro k; rfl
    | cons a x ih => intro k; rw [List.zipIdx_cons, List.map_cons, List.map_cons, ih]; rfl
  cases v <;> simp only [Own.kind, reduceCtorEq] at h
  case linkList x =>
    have hr := listItr_run Own.commitLink x n 0 (by simpa [Own.length] using hn)
    exact ⟨⟨_, congrArg some hr.1, snds (fun a => Node.own (.commitLink a)) x 0⟩,
      ⟨_, congrArg some hr.2, snds (fun a => (Own.commitLink a).representation) x 0⟩⟩
  case stringList x =>
    have hr := listItr_run Own.string x n 0 (by simpa [Own.length] using hn)
    exact ⟨⟨_, congrArg some hr.1, snds (fun a => Node.own (.string a)) x 0⟩,
      ⟨_, congrArg some hr.2, snds (fun a => (Own.string a).representation) x 0⟩⟩
  case tagList x =>
    have hr := listItr_run Own.tag x n 0 (by simpa [Own.length] using hn)
    exact ⟨⟨_, congrArg some hr.1, snds (fun a => Node.own (.tag a)) x 0⟩,
      ⟨_, congrArg some hr.2, snds (fun a => (Own.tag a).representation) x 0⟩⟩

/-- `LookupByIndex` of a list: "not exists" exactly at and after the end, a panic
exactly for negative indices, no other error. -/
theorem list_index_range (v : Own) (h : v.kind = .list) (i : Int) :
    (v.lookupIndex i = .err .notExists ↔ v.length ≤ i) ∧
    (v.lookupIndex i = .panic ↔ i < 0) ∧
    (∀ e, v.lookupIndex i = .err e → e = .notExists) ∧
    (v.reprLookupIndex i = .err .notExists ↔ v.length ≤ i) ∧
    (v.reprLookupIndex i = .panic ↔ i < 0) ∧
    (∀ e, v.reprLookupIndex i = .err e → e = .notExists) :=
  ⟨by rw [lookupIndex_err v i h]; simp, lookupIndex_panic v i h,
    fun e he => ((lookupIndex_err v i h e).1 he).2,
    by rw [reprLookupIndex_err v i h]; simp, reprLookupIndex_panic v i h,
    fun e he => ((reprLookupIndex_err v i h e).1 he).2⟩

/-- Calling `Next` when `Done` is true returns `ErrIteratorOverread` and does not
panic. -/
theorem list_overread {α : Type} (f : α → Own) (i : ListItr α) (h : i.done = true) :
    i.next f = .err .iterOver ∧ i.reprNext f = .err .iterOver := by
  have h : i.idx ≥ i.x.length := by simpa [ListItr.done] using h
  have : i.next f = .err .iterOver := by rw [ListItr.next, if_pos h]
  exact ⟨this, by rw [ListItr.reprNext, this]; rfl⟩

/-- The commit of the path examples. -/
def pathCommit : Commit :=
  { iterCommit with
    mergetag := [{ Tag.zero with tagger := ⟨b!"N", b!"e", b!"2", b!"+0100"⟩ }] }

/-- `mergetag/+00/tagger/name` leads to a string, in both views; a committer that
is not there is `Absent` in the typed view and an error in the other. -/
example :
    (Node.own (.commit pathCommit)).walk
        [.ofString b!"mergetag", .ofString b!"+00", .ofString b!"tagger", .ofString b!"name"]
      = .ok (.own (.string b!"N")) ∧
    (Node.repr (.commit pathCommit)).walk
        [.ofString b!"mergetag", .ofInt 0, .ofString b!"tagger", .ofString b!"name"]
      = .ok (.own (.string b!"N")) ∧
    (Node.own (.commit pathCommit)).walk [.ofString b!"committer"] = .ok .absent ∧
    (Node.repr (.commit pathCommit)).walk [.ofString b!"committer"] = .err .notExists ∧
    Agree (.commit pathCommit) :=
  ⟨rfl, rfl, rfl, rfl, trivial⟩

/-- The hypothesis of `path_no_panic_partial` is met by a path of a name and a
number. -/
example : ∀ g ∈ [Seg.ofString b!"other", .ofInt 0], ∀ i, StandsFor g i → 0 ≤ i := by
  intro g hg i hi
  simp only [List.mem_cons, List.not_mem_nil, or_false] at hg
  rcases hg with rfl | rfl
  · have := (index_ok _ _).2 hi
    rw [show (Seg.ofString b!"other").index = .err .atoi from rfl] at this
    cases this
  · rcases hi with ⟨_, rfl⟩ | ⟨h, _⟩
    · decide
    · exact absurd h (by decide)

/-- A list with two elements. -/
example : (Own.stringList [b!"a", b!"b"]).listLoop 2
      = some (.ok [(0, .own (.string b!"a")), (1, .own (.string b!"b"))]) ∧
    (Own.stringList [b!"a", b!"b"]).lookupIndex 1 = .ok (.own (.string b!"b")) ∧
    (Own.stringList [b!"a", b!"b"]).lookupIndex 2 = .err .notExists ∧
    (Own.stringList [b!"a", b!"b"]).lookupIndex (-1) = .panic :=
  ⟨rfl, rfl, rfl, rfl⟩

/-! ## C49 -/

/-- Structs: `LookupByNode` with a key of string kind is `LookupByString` with its
text, and an error with any other key. -/
theorem struct_lookup_node (v : Own) (h : IsStruct v) (key : Node) :
    (∀ k, key.asString = .ok k →
      v.lookupNode key = v.lookup k ∧ v.reprLookupNode key = v.reprLookup k) ∧
    ((∀ k, key.asString ≠ .ok k) → ∃ e, v.lookupNode key = .err e ∧ v.reprLookupNode key = .err e) := by
  have hf : v.lookupNode key = (key.asString >>= v.lookup) ∧
      v.reprLookupNode key = (key.asString >>= v.reprLookup) := by
    cases v <;> simp only [IsStruct] at h <;> exact ⟨rfl, rfl⟩
  rw [hf.1, hf.2]
  constructor
  · intro k hk; rw [hk]; exact ⟨rfl, rfl⟩
  · intro hk
    cases ha : key.asString with
    | ok k => exact absurd ha (hk k)
    | err e => exact ⟨e, rfl, rfl⟩
    | panic => exfalso; revert ha; unfold Node.asString; split <;> simp

/-- Lists: `LookupByNode` with an int key is `LookupByIndex` with its value, and an
error with any other key. -/
theorem list_lookup_node (v : Own) (h : v.kind = .list) (key : Node) :
    (∀ i, key = .int i →
      v.lookupNode key = v.lookupIndex i ∧ v.reprLookupNode key = v.reprLookupIndex i) ∧
    ((∀ i, key ≠ .int i) →
      v.lookupNode key = .err .wrongKind ∧ v.reprLookupNode key = .err .wrongKind) := by
  have hf : v.lookupNode key = (key.asInt >>= v.lookupIndex) ∧
      v.reprLookupNode key = ((key.asInt >>= v.lookupIndex) >>= fun n => .ok n.reprOf) := by
    cases v <;> simp only [Own.kind, reduceCtorEq] at h <;> exact ⟨rfl, rfl⟩
  rw [hf.1, hf.2]
  constructor
  · rintro i rfl; exact ⟨rfl, rfl⟩
  · intro hk
    have : key.asInt = .err .wrongKind := by
      unfold Node.asInt
      split
      · exact absurd rfl (hk _)
      · rfl
    rw [this]
    exact ⟨rfl, rfl⟩

/-- Trees: with a key of the package's `String` type `LookupByNode` is
`LookupByString`. With every other key the claim is false:
`tree_lookup_node_panics`. -/
theorem tree_lookup_node_partial (t : Tree) (k : Bytes) :
    (Own.tree t).lookupNode (.own (.string k)) = (Own.tree t).lookup k ∧
    (Own.tree t).reprLookupNode (.own (.string k)) = (Own.tree t).reprLookup k := by
  refine ⟨rfl, ?_⟩
  show ((match mapGet t.m k with
      | some e => .ok (.own (.treeEntry e))
      | none => .err .notExists : Res Node) >>= fun n => .ok n.reprOf) = _
  simp only [Own.reprLookup]
  cases mapGet t.m k <;> rfl

/-- Trees: `LookupByNode` panics for every key that is not of the package's
`String` type, in particular for the string nodes of `basicnode`. -/
theorem tree_lookup_node_panics (t : Tree) (key : Node) (h : ∀ k, key ≠ .own (.string k)) :
    (Own.tree t).lookupNode key = .panic ∧ (Own.tree t).reprLookupNode key = .panic := by
  have : (Own.tree t).lookupNode key = .panic := by
    simp only [Own.lookupNode]
  exact ⟨this, by simp only [Own.reprLookupNode]; rw [this]; rfl⟩

/-- A tree with one entry: found with a `String`, a panic with a foreign string. -/
example :
    (Own.tree ⟨[(b!"a", ⟨b!"40000", .nil⟩)], [(b!"a", ⟨b!"40000", .nil⟩)]⟩).lookupNode
        (.own (.string b!"a")) = .ok (.own (.treeEntry ⟨b!"40000", .nil⟩)) ∧
    (Own.tree ⟨[(b!"a", ⟨b!"40000", .nil⟩)], [(b!"a", ⟨b!"40000", .nil⟩)]⟩).lookupNode
        (.str b!"a") = .panic ∧
    (Own.person ⟨b!"n", b!"e", b!"1", b!"z"⟩).lookupNode (.str b!"name")
      = .ok (.own (.string b!"n")) ∧
    (Own.person ⟨b!"n", b!"e", b!"1", b!"z"⟩).lookupNode (.int 0) = .err .wrongKind :=
  ⟨rfl, rfl, rfl, rfl⟩

end Verif.Props
