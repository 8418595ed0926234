import Verif.Spec.Sorted
import Verif.Props.TreeFeed
import Verif.Props.Encode

/-!
# C101 Through a codec that sorts
-/

namespace Verif.Props

open Verif Spec Calls

/-! ## Shuffled data -/

theorem shuffled_noAbsent {d d' : Data} (h : Shuffled d d') : noAbsent d' :=
  Shuffled.rec (motive_1 := fun _ d' _ => noAbsent d') (motive_2 := fun _ ds _ => noAbsents ds)
    (motive_3 := fun _ es _ => noAbsentIn es)
    (fun _ => by rw [noAbsent]; trivial) (fun _ => by rw [noAbsent]; trivial) (fun _ => by rw [noAbsent]; trivial)
    (fun _ h => by rw [noAbsent]; exact h) (fun _ _ h => by rw [noAbsent]; exact h)
    (by rw [noAbsents]; trivial) (fun _ _ h1 h2 => by rw [noAbsents]; exact ⟨h1, h2⟩)
    (by rw [noAbsentIn]; trivial) (fun _ _ h1 h2 => by rw [noAbsentIn]; exact ⟨h1, h2⟩) h

theorem shuffledMap_mem {es es' : List (Bytes × Data)} (h : ShuffledMap es es') {k : Bytes} {n : Node}
    (hm : (k, n) ∈ Data.entries es') : ∃ d d', (k, d) ∈ es ∧ Shuffled d d' ∧ n = d'.node := by
  induction es' generalizing es with
  | nil => simp [Data.entries] at hm
  | cons e es' ih =>
    cases h with
    | cons h1 h2 =>
      rw [Data.entries] at hm
      rcases List.mem_cons.1 hm with he | hm
      · cases he
        exact ⟨_, _, by simp, h1, rfl⟩
      · obtain ⟨d, d', h3, h4, h5⟩ := ih h2 hm
        exact ⟨d, d', by simp [h3], h4, h5⟩

theorem shuffledMap_keys {es es' : List (Bytes × Data)} (h : ShuffledMap es es') :
    es'.map Prod.fst = es.map Prod.fst := by
  induction es' generalizing es with
  | nil => cases h; rfl
  | cons e es' ih =>
    cases h with
    | cons h1 h2 => rw [List.map_cons, List.map_cons, ih h2]

theorem entries_keys (es : List (Bytes × Data)) : (Data.entries es).map Prod.fst = es.map Prod.fst := by
  induction es with
  | nil => rfl
  | cons e es ih => obtain ⟨k, d⟩ := e; rw [Data.entries, List.map_cons, ih]; rfl

theorem entries_mem {es : List (Bytes × Data)} {k : Bytes} {d : Data} (h : (k, d) ∈ es) :
    (k, d.node) ∈ Data.entries es := by
  induction es with
  | nil => simp at h
  | cons e es ih =>
    obtain ⟨k', d'⟩ := e
    rw [Data.entries]
    rcases List.mem_cons.1 h with he | h
    · cases he; simp
    · simp [ih h]

/-- A map with its entries in another order. -/
theorem shuffled_map {es : List (Bytes × Data)} {d' : Data} (h : Shuffled (.map es) d') :
    ∃ es', d'.node = .map es' ∧ (es'.map Prod.fst).Perm ((Data.entries es).map Prod.fst) ∧
      ∀ k n, (k, n) ∈ es' → ∃ d d'', (k, d.node) ∈ Data.entries es ∧ Shuffled d d'' ∧ n = d''.node := by
  cases h with
  | map hp hm =>
    refine ⟨_, by rw [Data.node], ?_, ?_⟩
    · rw [entries_keys, entries_keys, shuffledMap_keys hm]
      exact (hp.map Prod.fst).symm
    · intro k n hn
      obtain ⟨d, d'', h1, h2, h3⟩ := shuffledMap_mem hm hn
      exact ⟨d, d'', entries_mem (hp.mem_iff.2 h1), h2, h3⟩

theorem keysOk_perm {req opt : List Bytes} {es es' : List (Bytes × Node)}
    (hp : (es'.map Prod.fst).Perm (es.map Prod.fst)) (h : KeysOk req opt es) : KeysOk req opt es' :=
  ⟨hp.nodup_iff.2 h.1, fun k hk => h.2.1 k (hp.mem_iff.1 hk), fun k hk => hp.mem_iff.2 (h.2.2 k hk)⟩

/-- What a node denotes does not depend on the order of entries. -/
def Orderless {α : Type} (R : Node → α → Prop) : Prop := ∀ d d' a, Shuffled d d' → R d.node a → R d'.node a

theorem orderless_str : Orderless StrNode := by
  intro d d' a h hr
  cases h with
  | str b => exact hr
  | bytes b => exact hr
  | link l => exact hr
  | list _ => rw [Data.node] at hr; cases hr.1
  | map _ _ => rw [Data.node] at hr; cases hr.1

theorem orderless_link : Orderless LinkNode := by
  intro d d' a h hr
  cases h with
  | str b => exact hr
  | bytes b => exact hr
  | link l => exact hr
  | list _ => rw [Data.node] at hr; cases hr.1
  | map _ _ => rw [Data.node] at hr; cases hr.1

theorem orderless_list {α : Type} {R : Node → α → Prop} (hR : Orderless R) : Orderless (ListNode R) := by
  intro d d' as h hr
  obtain ⟨ns, hn, he⟩ := hr
  cases h with
  | str b => exact ⟨ns, hn, he⟩
  | bytes b => exact ⟨ns, hn, he⟩
  | link l => exact ⟨ns, hn, he⟩
  | map _ _ => rw [Data.node] at hn; cases hn
  | list hl =>
    rename_i ds ds'
    rw [Data.node] at hn
    cases hn
    refine ⟨Data.nodes ds', by rw [Data.node]; rfl, ?_⟩
    induction ds generalizing ds' as with
    | nil => cases hl; exact he
    | cons x ds ih =>
      cases hl with
      | cons h1 h2 =>
        rw [Data.nodes] at he ⊢
        cases as with
        | nil => exact he
        | cons a as => exact ⟨hR _ _ _ h1 he.1, ih as h2 he.2⟩

/-- The entries of `es'` are those of `es` in another order. -/
structure Entries (es es' : List (Bytes × Node)) : Prop where
  keys : (es'.map Prod.fst).Perm (es.map Prod.fst)
  mem : ∀ k n, (k, n) ∈ es' → ∃ d d', (k, d.node) ∈ es ∧ Shuffled d d' ∧ n = d'.node

theorem Entries.at {es es' : List (Bytes × Node)} (h : Entries es es') {α : Type} {R : Node → α → Prop}
    (hR : Orderless R) {k : Bytes} {a : α} (ha : At es k (R · a)) : At es' k (R · a) := by
  intro v hv
  obtain ⟨d, d', h1, h2, rfl⟩ := h.mem k v hv
  exact hR d d' a h2 (ha _ h1)

theorem Entries.opt {es es' : List (Bytes × Node)} (h : Entries es es') {α : Type} {R : Node → α → Prop}
    (hR : Orderless R) {k : Bytes} {o : Option α} (ha : OptAt es k R o) : OptAt es' k R o := by
  refine ⟨fun hk => ha.1 fun hk' => hk (h.keys.mem_iff.2 hk'), ?_⟩
  intro v hv
  obtain ⟨d, d', h1, h2, rfl⟩ := h.mem k v hv
  rcases ha.2 _ h1 with ⟨hab, _⟩ | ⟨a, hr, ho⟩
  · cases h2 <;> rw [Data.node] at hab <;> cases hab
  · exact .inr ⟨a, hR d d' a h2 hr, ho⟩

/-- For the struct types. -/
theorem orderless_struct {α : Type} {R : Node → α → Prop} (P : List (Bytes × Node) → α → Prop)
    (hR : ∀ n a, R n a ↔ ∃ es, n.mapIterator = some es ∧ P es a)
    (hP : ∀ es es' a, Entries es es' → P es a → P es' a) : Orderless R := by
  intro d d' a h hr
  obtain ⟨es, hn, hp⟩ := (hR _ _).1 hr
  cases d with
  | map ds =>
    rw [Data.node] at hn
    cases hn
    obtain ⟨es', h1, h2, h3⟩ := shuffled_map h
    exact (hR _ _).2 ⟨es', by rw [h1]; rfl, hP _ _ a ⟨h2, h3⟩ hp⟩
  | _ => simp [Data.node, Node.mapIterator] at hn

theorem orderless_person : Orderless PersonNode :=
  orderless_struct _ (fun _ _ => Iff.rfl) fun _ _ _ h hp =>
    ⟨keysOk_perm h.keys hp.1, h.at orderless_str hp.2.1, h.at orderless_str hp.2.2.1, h.at orderless_str hp.2.2.2.1,
      h.at orderless_str hp.2.2.2.2⟩

theorem orderless_treeEntry : Orderless TreeEntryNode :=
  orderless_struct _ (fun _ _ => Iff.rfl) fun _ _ _ h hp =>
    ⟨keysOk_perm h.keys hp.1, h.at orderless_str hp.2.1, h.at orderless_link hp.2.2⟩

theorem orderless_tag : Orderless TagNode :=
  orderless_struct _ (fun _ _ => Iff.rfl) fun _ _ _ h hp =>
    ⟨keysOk_perm h.keys hp.1, h.at orderless_link hp.2.1, h.at orderless_str hp.2.2.1, h.at orderless_str hp.2.2.2.1,
      h.at orderless_person hp.2.2.2.2.1, h.at orderless_str hp.2.2.2.2.2⟩

theorem orderless_commit : Orderless CommitNode :=
  orderless_struct _ (fun _ _ => Iff.rfl) fun _ _ _ h hp =>
    have ⟨h0, h1, h2, h3, h4, h5, h6, h7, h8, h9⟩ := hp
    ⟨keysOk_perm h.keys h0, h.at orderless_link h1, h.at (orderless_list orderless_link) h2, h.at orderless_str h3,
      h.opt orderless_person h4, h.opt orderless_person h5, h.opt orderless_str h6, h.opt orderless_str h7,
      h.at (orderless_list orderless_tag) h8, h.at (orderless_list orderless_str) h9⟩

/-! ## Commits and tags -/

/-- A commit goes through a codec that keeps the data but not the order of entries:
what is read back builds the same commit. -/
theorem shuffled_commit (c : Commit) {d d' : Data} (hd : Reads (Own.commit c).representation d) (h : Shuffled d d') :
    (∃ cs, Feeds d'.node cs) ∧ ∀ cs, Feeds d'.node cs → buildBy .commit cs = .ok (commitVal c) := by
  refine ⟨feeds_of d' (shuffled_noAbsent h), fun cs hc => ?_⟩
  rw [reads_unique hd (reads_own true (.commit c))] at h
  exact (calls_build_commit hc _).2 ⟨c, orderless_commit _ _ c h (commit_data c), rfl⟩

/-- The same for tags. -/
theorem shuffled_tag (t : Tag) {d d' : Data} (hd : Reads (Own.tag t).representation d) (h : Shuffled d d') :
    (∃ cs, Feeds d'.node cs) ∧ ∀ cs, Feeds d'.node cs → buildBy .tag cs = .ok (tagVal t) := by
  refine ⟨feeds_of d' (shuffled_noAbsent h), fun cs hc => ?_⟩
  rw [reads_unique hd (reads_own true (.tag t))] at h
  exact (calls_build_tag hc _).2 ⟨t, orderless_tag _ _ t h (tag_data t), rfl⟩

/-! ## Trees -/

theorem perm_map_inv {α β : Type} (f : α → β) {l : List α} {m : List β} (h : (l.map f).Perm m) :
    ∃ l', l.Perm l' ∧ l'.map f = m := by
  generalize hx : l.map f = x at h
  induction h generalizing l with
  | nil => exact ⟨l, .refl _, hx⟩
  | cons a _ ih =>
    cases l with
    | nil => simp at hx
    | cons y l =>
      simp only [List.map_cons, List.cons.injEq] at hx
      obtain ⟨l', h1, h2⟩ := ih hx.2
      exact ⟨y :: l', h1.cons y, by rw [List.map_cons, h2, hx.1]⟩
  | swap a b m =>
    match l, hx with
    | y :: z :: l, hx =>
      simp only [List.map_cons, List.cons.injEq] at hx
      exact ⟨z :: y :: l, .swap .., by simp [hx]⟩
  | trans _ _ ih1 ih2 =>
    obtain ⟨l1, h1, h2⟩ := ih1 hx
    obtain ⟨l2, h3, h4⟩ := ih2 h2
    exact ⟨l2, h1.trans h3, h4⟩

theorem shuffled_rows {rows : List Row} {es' : List (Bytes × Data)}
    (h : ShuffledMap (rows.map fun r => (r.1, entryData r.2)) es') :
    Each TreeEntryNode ((Data.entries es').map Prod.snd) (rows.map Prod.snd) := by
  induction rows generalizing es' with
  | nil => cases h; trivial
  | cons r rows ih =>
    cases h with
    | cons h1 h2 => exact ⟨orderless_treeEntry _ _ _ h1 (treeEntry_data r.2), ih h2⟩

/-- A tree goes through such a codec: what is read back builds a tree with the same
rows, in the order in which the entries come. -/
theorem shuffled_tree (pol : TreeAsm → Nat) (hint : Int) (t : Tree) (hn : (t.t.map Prod.fst).Nodup) {d d' : Data}
    (hd : Reads (Own.tree t).representation d) (h : Shuffled d d') :
    ∃ es', d' = .map es' ∧ (∃ cs, Feeds d'.node cs) ∧
      ∀ cs, Feeds d'.node cs → ∃ u, buildTreeBy pol hint cs = .ok u ∧ u.t.Perm t.t ∧
        u.t.map Prod.fst = es'.map Prod.fst := by
  rw [reads_unique hd (reads_own true (.tree t))] at h
  have hf := feeds_of d' (shuffled_noAbsent h)
  replace h : Shuffled (.map (t.t.map fun r => (r.1, entryData r.2))) d' := h
  cases h with
  | map hp hm =>
    rename_i fs es'
    refine ⟨es', rfl, hf, ?_⟩
    intro cs hc
    obtain ⟨rows, hr, rfl⟩ := perm_map_inv _ hp
    rw [Data.node] at hc
    have hk : es'.map Prod.fst = rows.map Prod.fst := by
      rw [shuffledMap_keys hm, List.map_map]
      rfl
    have hnd : (rows.map Prod.fst).Nodup := (hr.map Prod.fst).nodup_iff.1 hn
    obtain ⟨u, h1, h2, -⟩ := (calls_tree_distinct pol hint hc (by rw [entries_keys, hk]; exact hnd) rows).1.2
      ⟨by rw [entries_keys, hk], shuffled_rows hm⟩
    exact ⟨u, h1, by rw [h2]; exact hr.symm, by rw [h2, hk]⟩

theorem sorted_unique {α : Type} {lt : α → α → Prop} (irr : ∀ a, ¬ lt a a) (tr : ∀ a b c, lt a b → lt b c → lt a c)
    {l m : List α} (hl : l.Pairwise lt) (hm : m.Pairwise lt) (hp : l.Perm m) : l = m := by
  induction l generalizing m with
  | nil => exact hp.nil_eq
  | cons a l ih =>
    cases m with
    | nil => exact absurd hp.length_eq (by simp)
    | cons b m =>
      rw [List.pairwise_cons] at hl hm
      have hab : a = b := by
        rcases List.mem_cons.1 (hp.mem_iff.1 (List.mem_cons_self ..)) with h | h
        · exact h
        · rcases List.mem_cons.1 (hp.mem_iff.2 (List.mem_cons_self ..)) with h' | h'
          · exact h'.symm
          · exact absurd (tr _ _ _ (hm.1 a h) (hl.1 b h')) (irr b)
      subst hab
      rw [ih hl.2 hm.2 (List.Perm.cons_inv hp)]

theorem treeBody_perm {es es' : List Entry} (h : es.Perm es') : (treeBody es).length = (treeBody es').length := by
  unfold treeBody
  exact (h.flatMap_right _).length_eq

theorem entriesOk_perm {es es' : List Entry} (h : es.Perm es') (he : EntriesOk es) : EntriesOk es' :=
  ⟨fun e hm => he.each e (h.mem_iff.2 hm), (h.map _).nodup_iff.1 he.distinct⟩

/-- A valid tree goes through a codec that sorts the entries of maps, in whatever
order of keys. It is encoded to the same bytes as before exactly if its names were
in that order already. -/
theorem sorted_tree (pol : TreeAsm → Nat) (hint : Int) {lt : Bytes → Bytes → Prop} (hlt : KeyOrder lt)
    (es : List Entry) (hes : EntriesOk es) (hlen : (treeBody es).length < 2 ^ 63) (t : Tree) (ht : t.t = es.map Entry.row)
    {d : Data} {es' : List (Bytes × Data)} (hd : Reads (Own.tree t).representation d) (h : Shuffled d (.map es'))
    (hsort : (es'.map Prod.fst).Pairwise lt) :
    (∃ cs, Feeds (Data.map es').node cs) ∧
    ∀ cs, Feeds (Data.map es').node cs → ∃ u out out', buildTreeBy pol hint cs = .ok u ∧
      encObj (.tree t) = .ok out ∧ encObj (.tree u) = .ok out' ∧
      (out' = out ↔ (es.map (·.name)).Pairwise lt) := by
  have hnames : t.t.map Prod.fst = es.map (·.name) := by
    rw [ht, List.map_map]
    rfl
  obtain ⟨es'', he, hf, hb⟩ := shuffled_tree pol hint t (by rw [hnames]; exact hes.distinct) hd h
  cases he
  refine ⟨hf, fun cs hc => ?_⟩
  obtain ⟨u, hu, hp, hk⟩ := hb cs hc
  obtain ⟨fs, hfs, hrow⟩ := perm_map_inv Entry.row (by rw [← ht]; exact hp.symm : (es.map Entry.row).Perm u.t)
  have w1 : WellFormed 4096 (.tree t) := ⟨es, hes, ht, hlen⟩
  have w2 : WellFormed 4096 (.tree u) := ⟨fs, entriesOk_perm hfs hes, hrow.symm, by rw [← treeBody_perm hfs]; exact hlen⟩
  obtain ⟨out, _, h1, _⟩ := object_roundtrip 4096 (by omega) _ w1
  obtain ⟨out', _, h2, _⟩ := object_roundtrip 4096 (by omega) _ w2
  refine ⟨u, out, out', hu, h1, h2, ?_⟩
  have key : out' = out ↔ u.t = t.t := by
    constructor
    · intro h
      exact encode_injective 4096 (by omega) (.tree u) (.tree t) w2 w1 (by rw [h1, h2, h])
    · intro h
      have : encObj (.tree u) = encObj (.tree t) := by
        show encTree u = encTree t
        unfold encTree
        rw [h]
      rw [h1, h2] at this
      exact Res.ok.inj this
  rw [key]
  constructor
  · intro h
    rw [← hnames, ← h, hk]
    exact hsort
  · intro h
    have hs : ∀ l : List Row, (l.map Prod.fst).Pairwise lt → l.Pairwise fun a b => lt a.1 b.1 :=
      fun l hl => List.pairwise_map.1 hl
    exact sorted_unique (lt := fun a b : Row => lt a.1 b.1) (fun a => hlt.irrefl a.1) (fun a b c => hlt.trans a.1 b.1 c.1)
      (hs _ (by rw [hk]; exact hsort)) (hs _ (by rw [hnames]; exact h)) hp

/-! ## The order of git -/

theorem u8_lt (x y : UInt8) : x < y ↔ x.toNat < y.toNat := UInt8.lt_iff_toNat_lt

theorem bytesLt_order : KeyOrder bytesLt := by
  refine ⟨?_, ?_, ?_⟩
  · intro a
    induction a with
    | nil => simp [bytesLt]
    | cons x a ih => simp [bytesLt, ih]
  · intro a
    induction a with
    | nil =>
      intro b c h1 h2
      cases c with
      | nil => cases b <;> simp [bytesLt] at h2
      | cons z c => simp [bytesLt]
    | cons x a ih =>
      intro b c h1 h2
      cases b with
      | nil => simp [bytesLt] at h1
      | cons y b =>
        cases c with
        | nil => simp [bytesLt] at h2
        | cons z c =>
          simp only [bytesLt] at h1 h2 ⊢
          rcases h1 with h1 | ⟨rfl, h1⟩
          · rcases h2 with h2 | ⟨rfl, h2⟩
            · exact .inl (by rw [u8_lt] at *; omega)
            · exact .inl h1
          · rcases h2 with h2 | ⟨rfl, h2⟩
            · exact .inl h2
            · exact .inr ⟨rfl, ih _ _ h1 h2⟩
  · intro a
    induction a with
    | nil =>
      intro b
      cases b with
      | nil => exact .inr (.inl rfl)
      | cons y b => exact .inl (by simp [bytesLt])
    | cons x a ih =>
      intro b
      cases b with
      | nil => exact .inr (.inr (by simp [bytesLt]))
      | cons y b =>
        simp only [bytesLt, List.cons.injEq]
        by_cases hxy : x = y
        · subst hxy
          rcases ih b with h | h | h
          · exact .inl (.inr ⟨rfl, h⟩)
          · exact .inr (.inl ⟨rfl, h⟩)
          · exact .inr (.inr (.inr ⟨rfl, h⟩))
        · have : x.toNat ≠ y.toNat := fun h => hxy (UInt8.toNat_inj.1 h)
          rw [u8_lt, u8_lt]
          rcases Nat.lt_or_gt_of_ne this with h | h
          · exact .inl (.inl h)
          · exact .inr (.inr (.inl h))

theorem lengthLt_order : KeyOrder lengthLt := by
  refine ⟨?_, ?_, ?_⟩
  · rintro a (h | h)
    · omega
    · exact bytesLt_order.irrefl a h.2
  · rintro a b c (h1 | h1) (h2 | h2)
    · exact .inl (by omega)
    · exact .inl (by omega)
    · exact .inl (by omega)
    · exact .inr ⟨by omega, bytesLt_order.trans a b c h1.2 h2.2⟩
  · intro a b
    rcases Nat.lt_trichotomy a.length b.length with h | h | h
    · exact .inl (.inl h)
    · rcases bytesLt_order.total a b with h' | h' | h'
      · exact .inl (.inr ⟨h, h'⟩)
      · exact .inr (.inl h')
      · exact .inr (.inr (.inr ⟨h.symm, h'⟩))
    · exact .inr (.inr (.inl h))

theorem bytesLt_cons_prefix (p r : Bytes) (x : UInt8) : bytesLt p (p ++ x :: r) := by
  induction p with
  | nil => simp [bytesLt]
  | cons y p ih => exact .inr ⟨rfl, ih⟩

theorem bytesLt_append (p a b : Bytes) : bytesLt (p ++ a) (p ++ b) ↔ bytesLt a b := by
  induction p with
  | nil => rfl
  | cons y p ih => simp [bytesLt, ih]

/-- One below another: it is a proper prefix, or less at the first difference. -/
theorem bytesLt_cases {a b : Bytes} (h : bytesLt a b) :
    (∃ c r, b = a ++ c :: r) ∨ ∃ p x y r s, a = p ++ x :: r ∧ b = p ++ y :: s ∧ x < y := by
  induction a generalizing b with
  | nil =>
    cases b with
    | nil => simp [bytesLt] at h
    | cons c r => exact .inl ⟨c, r, rfl⟩
  | cons x a ih =>
    cases b with
    | nil => simp [bytesLt] at h
    | cons y b =>
      rcases h with h | ⟨rfl, h⟩
      · exact .inr ⟨[], x, y, a, b, rfl, rfl, h⟩
      · rcases ih h with ⟨c, r, rfl⟩ | ⟨p, x', y', r, s, rfl, rfl, hlt⟩
        · exact .inl ⟨c, r, rfl⟩
        · exact .inr ⟨x :: p, x', y', r, s, rfl, rfl, hlt⟩

theorem sortName_eq (e : Entry) : ∃ s, e.sortName = e.name ++ s ∧ (e.dir ∧ s = [0x2f] ∨ ¬ e.dir ∧ s = []) := by
  unfold Entry.sortName
  by_cases h : e.dir
  · exact ⟨[0x2f], by rw [if_pos h], .inl ⟨h, rfl⟩⟩
  · exact ⟨[], by rw [if_neg h, List.append_nil], .inr ⟨h, rfl⟩⟩

/-- Where the order of git differs from that of the bytes. -/
theorem sort_clash {a b : Entry} (h : bytesLt a.sortName b.sortName) (h' : bytesLt b.name a.name) :
    b.dir ∧ ∃ c r, a.name = b.name ++ c :: r ∧ c < 0x2f := by
  obtain ⟨s, hs, hs'⟩ := sortName_eq a
  obtain ⟨q, hq, hq'⟩ := sortName_eq b
  rw [hs, hq] at h
  rcases bytesLt_cases h' with ⟨c, r, he⟩ | ⟨p, x, y, r, r', e1, e2, hlt⟩
  · rw [he, List.append_assoc, bytesLt_append] at h
    rcases hq' with ⟨hd, rfl⟩ | ⟨_, rfl⟩
    · refine ⟨hd, c, r, he, ?_⟩
      rcases h with h | ⟨_, h⟩
      · exact h
      · have : ∀ x : Bytes, ¬ bytesLt x [] := by intro x; cases x <;> simp [bytesLt]
        exact absurd h (this _)
    · simp [bytesLt] at h
  · rw [e1, e2, List.append_assoc, List.append_assoc, bytesLt_append] at h
    rcases h with h | ⟨h, _⟩
    · rw [u8_lt] at *
      omega
    · subst h
      rw [u8_lt] at hlt
      omega

/-- A tree in the order of git is in the order of the bytes of its names exactly
unless a directory and another name clash. -/
theorem git_order_bytes (es : List Entry) (hn : (es.map (·.name)).Nodup) (h : GitSorted es) :
    (es.map (·.name)).Pairwise bytesLt ↔ ¬ SlashClash es := by
  rw [List.pairwise_map]
  constructor
  · rintro hp ⟨d, hd, a, ha, hdir, c, r, he, hc⟩
    have hda : bytesLt d.name a.name := by rw [he]; exact bytesLt_cons_prefix _ _ _
    have hk : bytesLt a.sortName d.sortName := by
      unfold Entry.sortName
      rw [if_pos hdir, he]
      split
      · rw [List.append_assoc, bytesLt_append]
        exact .inl hc
      · rw [bytesLt_append]
        exact .inl hc
    have hne : a ≠ d := by
      rintro rfl
      exact bytesLt_order.irrefl _ hda
    have key : ∀ l : List Entry, a ∈ l → d ∈ l →
        l.Pairwise (fun a b => bytesLt a.name b.name) → l.Pairwise (fun a b => bytesLt a.sortName b.sortName) → False := by
      intro l ha hd h1 h2
      induction l with
      | nil => simp at ha
      | cons x l ih =>
        rw [List.pairwise_cons] at h1 h2
        rcases List.mem_cons.1 ha with e1 | ha1
        · rcases List.mem_cons.1 hd with e2 | hd1
          · exact hne (e1.trans e2.symm)
          · rw [← e1] at h1
            exact bytesLt_order.irrefl _ (bytesLt_order.trans _ _ _ hda (h1.1 d hd1))
        · rcases List.mem_cons.1 hd with e2 | hd1
          · rw [← e2] at h2
            exact bytesLt_order.irrefl _ (bytesLt_order.trans _ _ _ hk (h2.1 a ha1))
          · exact ih ha1 hd1 h1.2 h2.2
    exact key es ha hd hp h
  · intro hc
    induction es with
    | nil => exact .nil
    | cons e es ih =>
      rw [GitSorted, List.pairwise_cons] at h
      rw [List.map_cons, List.nodup_cons] at hn
      rw [List.pairwise_cons]
      refine ⟨fun b hb => ?_, ih hn.2 h.2 fun ⟨d, hd, a, ha, hx⟩ =>
        hc ⟨d, List.mem_cons_of_mem _ hd, a, List.mem_cons_of_mem _ ha, hx⟩⟩
      rcases bytesLt_order.total e.name b.name with h1 | h1 | h1
      · exact h1
      · exact absurd (List.mem_map.2 ⟨b, hb, h1.symm⟩) hn.1
      · obtain ⟨hd, c, r, he, hlt⟩ := sort_clash (h.1 b hb) h1
        exact absurd ⟨b, List.mem_cons_of_mem _ hb, e, List.mem_cons_self .., hd, c, r, he, hlt⟩ hc

/-- A tree of git goes through DAG-JSON: it is encoded to the same bytes, so to the
same object, exactly unless it has a directory and a name that begins with the name
of the directory and goes on with a byte below the slash. -/
theorem dagjson_tree (pol : TreeAsm → Nat) (hint : Int) (es : List Entry) (hes : EntriesOk es) (hg : GitSorted es)
    (hlen : (treeBody es).length < 2 ^ 63) (t : Tree) (ht : t.t = es.map Entry.row)
    {d : Data} {es' : List (Bytes × Data)} (hd : Reads (Own.tree t).representation d) (h : Shuffled d (.map es'))
    (hsort : (es'.map Prod.fst).Pairwise bytesLt) (cs : List (Nat × Call)) (hc : Feeds (Data.map es').node cs) :
    ∃ u out out', buildTreeBy pol hint cs = .ok u ∧ encObj (.tree t) = .ok out ∧ encObj (.tree u) = .ok out' ∧
      (out' = out ↔ ¬ SlashClash es) := by
  obtain ⟨u, out, out', h1, h2, h3, h4⟩ := (sorted_tree pol hint bytesLt_order es hes hlen t ht hd h hsort).2 cs hc
  exact ⟨u, out, out', h1, h2, h3, h4.trans (git_order_bytes es hes.distinct hg)⟩

/-! ## Cases -/

namespace SortedExample

/-- A file and a directory as git sorts them. -/
def es : List Entry :=
  [⟨b!"100644", b!"lib.c", List.replicate 20 1⟩, ⟨b!"40000", b!"lib", List.replicate 20 2⟩,
   ⟨b!"100644", b!"lib0", List.replicate 20 3⟩]

theorem es_ok : EntriesOk es := by
  refine ⟨?_, by decide⟩
  intro e he
  simp only [es, List.mem_cons, List.not_mem_nil, or_false] at he
  rcases he with rfl | rfl | rfl <;> exact ⟨by decide, by decide, by decide⟩

theorem es_sorted : GitSorted es := by
  unfold GitSorted es
  simp [Entry.sortName, Entry.dir, bytesLt]

/-- They clash, so the tree does not survive DAG-JSON. -/
example : SlashClash es :=
  ⟨⟨b!"40000", b!"lib", List.replicate 20 2⟩, by simp [es], ⟨b!"100644", b!"lib.c", List.replicate 20 1⟩,
    by simp [es], rfl, 0x2e, b!"c", rfl, by decide⟩

/-- Without the file it does. -/
example : GitSorted (es.drop 1) ∧ ¬ SlashClash (es.drop 1) := by
  have h : GitSorted (es.drop 1) := (List.pairwise_cons.1 es_sorted).2
  refine ⟨h, ?_⟩
  rw [← git_order_bytes _ ?_ h]
  · simp [es, bytesLt]
  · decide

/-- In DAG-CBOR the shorter name comes first. -/
example : lengthLt b!"b" b!"aa" ∧ bytesLt b!"aa" b!"b" := by simp [lengthLt, bytesLt]

theorem entry_shuffled (e : TreeEntry) : Shuffled (entryData e) (.map [(b!"hash", .link e.hash), (b!"mode", .str e.mode)]) :=
  .map (.swap ..) (.cons (.link _) (.cons (.str _) .nil))

/-- What DAG-JSON makes of the tree: the entries sorted, and in each entry the fields. -/
theorem sorted (t : Tree) (ht : t.t = es.map Entry.row) :
    ∃ d es', Reads (Own.tree t).representation d ∧ Shuffled d (.map es') ∧ (es'.map Prod.fst).Pairwise bytesLt := by
  refine ⟨_, [(b!"lib", .map [(b!"hash", .link (gitLink (List.replicate 20 2))), (b!"mode", .str b!"40000")]),
      (b!"lib.c", .map [(b!"hash", .link (gitLink (List.replicate 20 1))), (b!"mode", .str b!"100644")]),
      (b!"lib0", .map [(b!"hash", .link (gitLink (List.replicate 20 3))), (b!"mode", .str b!"100644")])], reads_own true (.tree t), ?_, ?_⟩
  · show Shuffled (.map (t.t.map fun r => (r.1, entryData r.2))) _
    rw [ht]
    exact .map (.swap ..) (.cons (entry_shuffled _) (.cons (entry_shuffled _) (.cons (entry_shuffled _) .nil)))
  · simp [bytesLt]

end SortedExample

end Verif.Props
