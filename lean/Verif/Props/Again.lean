import Verif.Proofs.Again

/-!
# Several objects through one builder

`Decode` called again and again with one builder of commits or of tags, without `Reset`.
-/

namespace Verif.Props

open Spec Calls Handles

variable {t : T} {repr : Bool} {grow : Nat → Nat}

/-- A stream that holds no object, or a blob, is refused and leaves the builder as it was,
whatever has been done with it. -/
theorem again_garbage {s : Stream} {a : St} {out : Handles.Out} (ho : DecodeOn repr grow s a out)
    (h : (∃ e, parseObject s = .err e) ∨ ∃ x, parseObject s = .ok (.blob x)) : ∃ e, out = .err e a := by
  cases ho with
  | fails he => exact ⟨_, rfl⟩
  | @gives o d hq hd =>
    rcases h with ⟨e, h⟩ | ⟨x, h⟩
    · rw [hq] at h; cases h
    · rw [hq] at h; cases h
      cases hd with
      | @own _ u _ h1 _ => exact absurd h1 (by cases u <;> simp [Verif.Obj.own, Verif.Own.proto, protoOf])
      | plain _ h2 =>
        cases h2 with
        | text h _ => cases h
        | link h _ => cases h
        | other _ => exact ⟨.wrongKind, by cases ha : a.obj.ty.shape <;> rfl⟩
        | list h _ _ => cases h
        | map h _ _ => cases h

/-- The first object of the type of the builder is built exactly, whatever streams came
before: `Build` then gives that object. -/
theorem again_first (ht : t = .commit ∨ t = .tag) {l : List Stream} {a : St}
    (hd : Decodes repr grow (builder t) l a) (hl : ∀ s ∈ l, ¬ HoldsOwn t s) {s : Stream} {o : Verif.Obj}
    (hp : parseObject s = .ok o) (hq : o.own.proto = protoOf t) {out : Handles.Out}
    (ho : DecodeOn repr grow s a out) : ∃ b, out = .ok b ∧ build b = .ok (valOf o.own) := by
  obtain ⟨h1, -, h2, -⟩ := decodes_held ht hd (held_builder ht)
  cases ho with
  | fails he => rw [he] at hp; cases hp
  | @gives o' d h3 h4 =>
    rw [h3] at hp; cases hp
    obtain ⟨b, h5, -, -, h6, -⟩ := (own_held repr grow ht h1 hq (complete_own hq) h4).1 (h2 rfl hl)
    exact ⟨b, h5, h6⟩

/-- The second object of the type of the builder panics, whatever streams came before and
between. -/
theorem again_second (ht : t = .commit ∨ t = .tag) {l : List Stream} {a : St}
    (hd : Decodes repr grow (builder t) l a) (hl : ∃ s ∈ l, HoldsOwn t s) {s : Stream} (hs : HoldsOwn t s)
    {out : Handles.Out} (ho : DecodeOn repr grow s a out) : out = .panic := by
  obtain ⟨h1, -, -, h2⟩ := decodes_held ht hd (held_builder ht)
  rcases on_held ht h1 ho with ⟨h, _⟩ | ⟨_, h, _⟩
  · exact absurd hs h
  · exact h (by rw [h2 rfl hl]; decide)

/-- An object of another type is never taken. -/
theorem again_other (ht : t = .commit ∨ t = .tag) {l : List Stream} {a : St}
    (hd : Decodes repr grow (builder t) l a) {s : Stream} (hs : ¬ HoldsOwn t s)
    {out : Handles.Out} (ho : DecodeOn repr grow s a out) : out = .panic ∨ ∃ e b, out = .err e b := by
  obtain ⟨h1, -⟩ := decodes_held ht hd (held_builder ht)
  rcases on_held ht h1 ho with ⟨_, h | ⟨e, b, h, _⟩⟩ | ⟨h, _⟩
  · exact .inl h
  · exact .inr ⟨e, b, h⟩
  · exact absurd h hs

/-- Until then, `Build` panics. -/
theorem again_unbuilt (ht : t = .commit ∨ t = .tag) {l : List Stream} {a : St}
    (hd : Decodes repr grow (builder t) l a) (hl : ∀ s ∈ l, ¬ HoldsOwn t s) : build a = .panic := by
  obtain ⟨-, -, h2, -⟩ := decodes_held ht hd (held_builder ht)
  unfold build
  rw [if_neg (by rw [h2 rfl hl]; decide)]

theorem decodes_calm (ht : t = .commit ∨ t = .tag) {l : List Stream} {a b : St} (hd : Decodes repr grow a l b)
    (h : Held t a) (hc : Calm a) (hl : ∀ s ∈ l, ¬ HoldsNamed t s) :
    (a.mark = .value → build b = build a) ∧
    (∀ s ∈ l, ∀ o, parseObject s = .ok o → o.own.proto = protoOf t → build b = .ok (valOf o.own)) := by
  induction hd with
  | nil a => exact ⟨fun _ => rfl, fun s hs => nomatch hs⟩
  | @ok s r a b c h1 _ ih =>
    generalize hout : Handles.Out.ok b = out at h1
    cases h1 with
    | fails he => cases hout
    | @gives o d h3 h4 =>
      have hq : o.own.proto = protoOf t := by
        apply Classical.byContradiction
        intro hq
        rcases other_held repr grow ht h hq h4 with h5 | ⟨e, b', h5, _⟩ <;> (rw [h5] at hout; cases hout)
      obtain ⟨h5, h6⟩ := own_held repr grow ht h hq (complete_own hq) h4
      by_cases hm : a.mark = .absent
      · obtain ⟨b', h7, h8, h9, h10, h11⟩ := h5 hm
        rw [h7] at hout
        cases hout
        have hcb : Calm b := by unfold Calm; rw [h11]; exact hc
        obtain ⟨i1, i2⟩ := ih h8 hcb fun s hs => hl s (List.mem_cons_of_mem _ hs)
        refine ⟨fun hv => absurd (hm.symm.trans hv) (by decide), fun s' hs' o' ho' hq' => ?_⟩
        rcases List.mem_cons.mp hs' with rfl | hs'
        · rw [h3] at ho'; cases ho'
          rw [i1 h9, h10]
        · exact i2 s' hs' o' ho' hq'
      · rw [h6 hm] at hout; cases hout
  | @err s r a b c e h1 _ ih =>
    obtain ⟨hcb, hmem⟩ := on_calm ht h hc (hl s (List.mem_cons_self ..)) h1
    rcases on_held ht h h1 with ⟨hn, h2 | ⟨e', b', h2, h3, h4⟩⟩ | ⟨_, h2, h3⟩
    · cases h2
    · cases h2
      obtain ⟨i1, i2⟩ := ih h3 hcb fun s hs => hl s (List.mem_cons_of_mem _ hs)
      refine ⟨fun hv => ?_, fun s' hs' o' ho' hq' => ?_⟩
      · rw [i1 (h4.trans hv)]
        unfold build
        rw [h4, h3.w, h.w, h3.ty, h.ty, hmem]
      · rcases List.mem_cons.mp hs' with rfl | hs'
        · exact absurd ⟨o', ho', hq'⟩ hn
        · exact i2 s' hs' o' ho' hq'
    · by_cases hm : a.mark = .absent
      · obtain ⟨b', h4, _⟩ := h3 hm
        cases h4
      · cases h2 hm

/-- Once built, the object stays, if no tree begins with a name of one of the fields:
`Build` gives the one object of the type of the builder that was decoded, whatever
streams came before and after. -/
theorem again_value (ht : t = .commit ∨ t = .tag) {l : List Stream} {a : St}
    (hd : Decodes repr grow (builder t) l a) (hl : ∀ s ∈ l, ¬ HoldsNamed t s) {s : Stream} (hs : s ∈ l)
    {o : Verif.Obj} (hp : parseObject s = .ok o) (hq : o.own.proto = protoOf t) :
    build a = .ok (valOf o.own) :=
  (decodes_calm ht hd (held_builder ht) (.inl (by rcases ht with rfl | rfl <;> rfl)) hl).2 s hs o hp hq

theorem decodes_stuck (ht : t = .commit ∨ t = .tag) {l : List Stream} {a b : St} (hd : Decodes repr grow a l b)
    (h : Held t a) : (a.obj.ph = .midKey → b.obj.ph = .midKey) ∧
    ((∃ s ∈ l, HoldsRival t s) → b.obj.ph = .midKey) ∧
    (a.obj.ph = .initial → (∀ s ∈ l, ¬ HoldsRival t s ∧ ¬ HoldsTree s) → b.obj.ph = .initial) := by
  induction hd with
  | nil a => exact ⟨id, fun ⟨s, hs, _⟩ => (nomatch hs), fun h _ => h⟩
  | @ok s r a b c h1 _ ih =>
    have hb : Held t b := by
      rcases on_held ht h h1 with ⟨_, h2 | ⟨e, b', h2, _⟩⟩ | ⟨_, h2, h3⟩
      · cases h2
      · cases h2
      · by_cases hm : a.mark = .absent
        · obtain ⟨b', h4, h5, _⟩ := h3 hm
          cases h4; exact h5
        · cases h2 hm
    obtain ⟨i1, i2, i3⟩ := ih hb
    refine ⟨fun hp => i1 ((on_stuck ht h hp h1).2.2 b rfl), ?_, fun hp hl => ?_⟩
    · rintro ⟨s', hs', hr⟩
      rcases List.mem_cons.mp hs' with rfl | hs'
      · rcases (on_rival ht h hr h1).1 with h2 | ⟨e, b', h2, _⟩ <;> cases h2
      · exact i2 ⟨s', hs', hr⟩
    · obtain ⟨h2, h3⟩ := hl s (List.mem_cons_self ..)
      exact i3 ((on_initial ht h hp h2 h3 h1).2 b rfl) fun s hs => hl s (List.mem_cons_of_mem _ hs)
  | @err s r a b c e h1 _ ih =>
    have hb : Held t b := by
      rcases on_held ht h h1 with ⟨_, h2 | ⟨e, b', h2, h3, _⟩⟩ | ⟨_, h2, h3⟩
      · cases h2
      · cases h2; exact h3
      · by_cases hm : a.mark = .absent
        · obtain ⟨b', h4, _⟩ := h3 hm
          cases h4
        · cases h2 hm
    obtain ⟨i1, i2, i3⟩ := ih hb
    refine ⟨fun hp => i1 (by rw [(on_stuck ht h hp h1).2.1 e b rfl]; exact hp), ?_, fun hp hl => ?_⟩
    · rintro ⟨s', hs', hr⟩
      rcases List.mem_cons.mp hs' with rfl | hs'
      · rcases (on_rival ht h hr h1).1 with h2 | ⟨e, b', h2, h3⟩
        · cases h2
        · cases h2; exact i1 h3
      · exact i2 ⟨s', hs', hr⟩
    · obtain ⟨h2, h3⟩ := hl s (List.mem_cons_self ..)
      exact i3 (by rw [(on_initial ht h hp h2 h3 h1).1 e b rfl]; exact hp) fun s hs => hl s (List.mem_cons_of_mem _ hs)

/-- The first tag given to a builder of commits, or commit given to a builder of tags, is
an error, if no tree came before. -/
theorem again_rival (ht : t = .commit ∨ t = .tag) {l : List Stream} {a : St}
    (hd : Decodes repr grow (builder t) l a) (hl : ∀ s ∈ l, ¬ HoldsRival t s ∧ ¬ HoldsTree s) {s : Stream}
    (hs : HoldsRival t s) {out : Handles.Out} (ho : DecodeOn repr grow s a out) :
    ∃ b, out = .err .invalidKey b := by
  have h1 := (decodes_held ht hd (held_builder ht)).1
  have h2 := (decodes_stuck ht hd (held_builder ht)).2.2 (by rcases ht with rfl | rfl <;> rfl) hl
  exact (on_rival ht h1 hs ho).2 h2

/-- After it, the next object that is a map and not of the type of the builder panics. -/
theorem again_twice (ht : t = .commit ∨ t = .tag) {l : List Stream} {a : St}
    (hd : Decodes repr grow (builder t) l a) (hl : ∃ s ∈ l, HoldsRival t s) {s : Stream}
    (hs : HoldsRival t s ∨ HoldsTree s) {out : Handles.Out} (ho : DecodeOn repr grow s a out) : out = .panic := by
  have h1 := (decodes_held ht hd (held_builder ht)).1
  exact (on_stuck ht h1 ((decodes_stuck ht hd (held_builder ht)).2.1 hl) ho).1 hs

/-- Every stream does something: these theorems speak of every `Decode` that does not panic
while reading, and by `parse_no_panic` none does. -/
theorem again_total (s : Stream) (a : St) (h : parseObject s ≠ .panic) : ∃ out, DecodeOn repr grow s a out := by
  cases hp : parseObject s with
  | panic => exact absurd hp h
  | err e => exact ⟨_, .fails hp⟩
  | ok o =>
    have hv : BothViews o.own := by
      cases o with
      | blob x => exact both_blob x
      | tree x => exact both_tree x
      | commit x => exact both_commit x
      | tag x => exact both_tag x
    obtain ⟨d, hd⟩ := hv.1
    exact ⟨_, .gives hp hd⟩

/-! ## A tree that begins with the name of a field -/

/-- A tree with one entry, named `author`. -/
def treeIn : Stream := ⟨b!"tree 34\x00100644 author\x00aaaaaaaaaaaaaaaaaaaa", .eof, 4096⟩
/-- A commit with an author. -/
def commitIn : Stream := ⟨b!"commit 0\x00author A <a> 1 +0\n", .eof, 4096⟩
/-- A tag. -/
def tagIn : Stream := ⟨b!"tag 0\x00type a\ntag b\ntagger A <a> 1 +0\n", .eof, 4096⟩

/-- What `commitIn` holds. -/
def commitHeld : Commit := { Commit.zero with author := some ⟨b!"A", b!"a", b!"1", b!"+0"⟩ }
/-- What `tagIn` holds. -/
def tagHeld : Tag := ⟨.nil, b!"a", b!"b", ⟨b!"A", b!"a", b!"1", b!"+0"⟩, []⟩

theorem tree_in : ∃ g e, parseObject treeIn = .ok (.tree g) ∧ g.t = [(b!"author", e)] := ⟨_, _, rfl, rfl⟩
theorem commit_in : parseObject commitIn = .ok (.commit commitHeld) := by decide +kernel
theorem tag_in : parseObject tagIn = .ok (.tag tagHeld) := by decide +kernel

/-- With such a tree before the commit and a tag after it, `Build` no longer gives the
commit: `again_value` does not hold of all streams. -/
theorem again_named : ∃ a, Decodes false id (builder .commit) [treeIn, commitIn, tagIn] a ∧
    ∃ v, build a = .ok v ∧ v ≠ valOf (Verif.Obj.commit commitHeld).own := by
  obtain ⟨g, e, hg, ht⟩ := tree_in
  obtain ⟨dc, hc⟩ := (both_commit commitHeld).1
  obtain ⟨dt, htg⟩ := (both_tag tagHeld).1
  obtain ⟨dc', rfl, -⟩ := offers_own (u := .commit) rfl hc
  obtain ⟨dt', rfl, h6⟩ := offers_own (u := .tag) rfl htg
  obtain ⟨ds', rfl, h7⟩ := plain_own_map rfl h6
  obtain ⟨de, he⟩ := (both_treeEntry e).1
  have hgo : OffersEnts (g.t.map fun r => (r.1, Node.own (.treeEntry r.2))) (.cons b!"author" de .nil) := by
    rw [ht]
    exact .cons he .nil
  have hgd : Offers (.own (Verif.Obj.tree g).own) (.map (.cons b!"author" de .nil)) :=
    .plain (fun v t h hp => by cases h; cases t <;> cases hp) (.map rfl rfl hgo)
  obtain ⟨de', rfl, h8⟩ := offers_own (u := .treeEntry) rfl he
  obtain ⟨ds8, rfl, h9⟩ := plain_own_map rfl h8
  cases h7 with
  | cons h10 h11 =>
    cases h9 with
    | cons h12 h13 =>
      refine ⟨_, .err (.gives hg hgd) (.ok (.gives commit_in hc) (.err (.gives tag_in htg) (.nil _))), ?_⟩
      refine ⟨.struct [some (.link .nil), some (.list []), some (.text []), some (.struct [none, none, none, none]), none, none, none, some (.list []), some (.list [])], rfl, ?_⟩
      exact fun h => by cases h

/-! ## Cases -/

theorem own_in : HoldsOwn .commit commitIn := ⟨_, commit_in, rfl⟩
theorem rival_in : HoldsRival .commit tagIn := ⟨_, tag_in, by decide, .inr ⟨_, rfl⟩⟩
example : HoldsNamed .commit treeIn := by
  obtain ⟨g, e, h1, h2⟩ := tree_in
  exact ⟨g, _, e, [], h1, h2, by decide⟩
example : ¬ HoldsNamed .tag treeIn := by
  obtain ⟨g, e, h1, h2⟩ := tree_in
  rintro ⟨g', k, e', l, h3, h4, h5⟩
  rw [h1] at h3
  cases h3
  rw [h2] at h4
  cases h4
  exact absurd h5 (by decide)
example : ¬ HoldsOwn .commit tagIn := by
  rintro ⟨o, h1, h2⟩
  rw [tag_in] at h1
  cases h1
  cases h2

theorem tag_unnamed : ¬ HoldsNamed .commit tagIn := by
  rintro ⟨g, _, _, _, h, _⟩
  rw [tag_in] at h
  cases h
theorem commit_unnamed : ¬ HoldsNamed .commit commitIn := by
  rintro ⟨g, _, _, _, h, _⟩
  rw [commit_in] at h
  cases h

/-- A tag is refused, a commit is taken, and `Build` gives the commit. -/
example : ∃ a, Decodes true id (builder .commit) [tagIn, commitIn] a ∧
    build a = .ok (valOf (Verif.Obj.commit commitHeld).own) := by
  obtain ⟨out, h1⟩ := again_total (repr := true) (grow := id) tagIn (builder .commit) (by rw [tag_in]; exact nofun)
  obtain ⟨a, rfl⟩ := again_rival (.inl rfl) (.nil _) (by simp) rival_in h1
  obtain ⟨out, h2⟩ := again_total (repr := true) (grow := id) commitIn a (by rw [commit_in]; exact nofun)
  have hd : Decodes true id (builder .commit) [tagIn] a := .err h1 (.nil a)
  obtain ⟨b, rfl, h3⟩ := again_first (.inl rfl) hd (by
    intro s hs
    obtain rfl := List.mem_singleton.mp hs
    rintro ⟨o, h1, h2⟩
    rw [tag_in] at h1
    cases h1
    cases h2) commit_in rfl h2
  have hd' : Decodes true id (builder .commit) [tagIn, commitIn] b := .err h1 (.ok h2 (.nil b))
  exact ⟨b, hd', again_value (.inl rfl) hd' (by
    intro s hs
    simp only [List.mem_cons, List.not_mem_nil, or_false] at hs
    rcases hs with rfl | rfl
    · exact tag_unnamed
    · exact commit_unnamed) (by simp) commit_in rfl⟩

/-- A second tag panics. -/
example : ∃ a, Decodes true id (builder .commit) [tagIn] a ∧ DecodeOn true id tagIn a .panic := by
  obtain ⟨out, h1⟩ := again_total (repr := true) (grow := id) tagIn (builder .commit) (by rw [tag_in]; exact nofun)
  obtain ⟨a, rfl⟩ := again_rival (.inl rfl) (.nil _) (by simp) rival_in h1
  obtain ⟨out, h2⟩ := again_total (repr := true) (grow := id) tagIn a (by rw [tag_in]; exact nofun)
  have hd : Decodes true id (builder .commit) [tagIn] a := .err h1 (.nil a)
  obtain rfl := again_twice (.inl rfl) hd ⟨tagIn, by simp, rival_in⟩ (.inl rival_in) h2
  exact ⟨a, hd, h2⟩

/-- A second commit panics. -/
example : ∃ a, Decodes true id (builder .commit) [commitIn] a ∧ DecodeOn true id commitIn a .panic := by
  obtain ⟨out, h1⟩ := again_total (repr := true) (grow := id) commitIn (builder .commit) (by rw [commit_in]; exact nofun)
  obtain ⟨a, rfl, -⟩ := again_first (.inl rfl) (.nil _) (by simp) commit_in rfl h1
  obtain ⟨out, h2⟩ := again_total (repr := true) (grow := id) commitIn a (by rw [commit_in]; exact nofun)
  have hd : Decodes true id (builder .commit) [commitIn] a := .ok h1 (.nil a)
  obtain rfl := again_second (.inl rfl) hd ⟨commitIn, by simp, own_in⟩ own_in h2
  exact ⟨a, hd, h2⟩

end Verif.Props
