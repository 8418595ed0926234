import Verif.Proofs.AgainTree
import Verif.Props.Again

/-!
# Several objects through one tree builder

`Decode` called again and again with one builder of trees, without `Reset`. `Build`
returns the tree of the builder itself, so what a later `Build` gives is also what a node
that was built before shows by then.
-/

namespace Verif.Props

open Spec Calls Handles

variable {repr : Bool} {grow : Nat → Nat}

/-- A stream that holds no object, or a blob, is refused and leaves the builder as it was,
whatever has been done with it. -/
theorem treeAgain_garbage {s : Stream} {a : TreeSt} {out : TreeRes} (h : ¬ HoldsMap s)
    (ho : DecodeInto repr grow s a out) : ∃ e, out = .err e a := into_garbage h ho

/-- The first tree is built exactly, if nothing but such streams came before. A commit or
tag panics. Until then `Build` panics. -/
theorem treeAgain_first {l : List Stream} {a : TreeSt} (hd : DecodesInto repr grow .fresh l a)
    (hl : ∀ s ∈ l, ¬ HoldsMap s) :
    a.build = .panic ∧ ∀ s out, DecodeInto repr grow s a out →
      (∀ g, parseObject s = .ok (.tree g) → ∃ b, out = .ok b ∧ b.build = .ok g) ∧
      (∀ k, HoldsWith k s → out = .panic) := by
  obtain rfl := decodes_garbage hd hl
  refine ⟨rfl, fun s out ho => ⟨fun g hg => ?_, fun k hk => ?_⟩⟩
  · obtain ⟨room, rfl⟩ := into_tree hg ho
    obtain ⟨b, h1, h2⟩ := fresh_tree g room
    exact ⟨b, h1, full_built h2⟩
  · obtain ⟨n, r, rfl, _⟩ := into_with hk ho
    exact fresh_with

/-- After a tree. -/
theorem after_tree {p q : List Stream} {s0 : Stream} {g : Tree} {a : TreeSt}
    (hd : DecodesInto repr grow .fresh (p ++ s0 :: q) a) (hp : ∀ s ∈ p, ¬ HoldsMap s)
    (h0 : parseObject s0 = .ok (.tree g)) (hq : ∀ s ∈ q, ¬ HoldsMap s) : Stocked g a := by
  obtain ⟨b, h1, h2⟩ := decodes_append hd
  obtain rfl := decodes_garbage h1 hp
  cases h2 with
  | ok h3 h4 =>
    obtain ⟨room, h5⟩ := into_tree h0 h3
    obtain ⟨c, h6, h7⟩ := fresh_tree g room
    rw [h6] at h5
    cases h5
    obtain rfl := decodes_garbage h4 hq
    exact h7
  | err h3 h4 =>
    obtain ⟨room, h5⟩ := into_tree h0 h3
    obtain ⟨c, h6, h7⟩ := fresh_tree g room
    rw [h6] at h5
    cases h5

/-- After the tree `Build` gives it, a second tree panics, and a commit or tag is an error
which adds an entry to the tree that was built: named `tree` or `object`, without mode and
hash. -/
theorem treeAgain_then {p q : List Stream} {s0 : Stream} {g : Tree} {a : TreeSt}
    (hd : DecodesInto repr grow .fresh (p ++ s0 :: q) a) (hp : ∀ s ∈ p, ¬ HoldsMap s)
    (h0 : parseObject s0 = .ok (.tree g)) (hq : ∀ s ∈ q, ¬ HoldsMap s) :
    a.build = .ok g ∧ ∀ s out, DecodeInto repr grow s a out →
      (HoldsTree s → out = .panic) ∧
      (∀ k, HoldsWith k s → ∃ b, out = .err .wrongKind b ∧ b.build = .ok (withEmpty g k)) := by
  have hf := after_tree hd hp h0 hq
  refine ⟨full_built hf, fun s out ho => ⟨?_, fun k hk => ?_⟩⟩
  · rintro ⟨g', hg⟩
    obtain ⟨room, rfl⟩ := into_tree hg ho
    exact value_tree hf.mark g' room
  · obtain ⟨n, r, rfl, h1⟩ := into_with hk ho
    obtain ⟨b, h2, h3⟩ := full_with hf r h1
    exact ⟨b, h2, h3.built⟩

theorem after_with {p q r : List Stream} {s0 s1 : Stream} {g : Tree} {k : Bytes} {a : TreeSt}
    (hd : DecodesInto repr grow .fresh (p ++ s0 :: q ++ s1 :: r) a) (hp : ∀ s ∈ p, ¬ HoldsMap s)
    (h0 : parseObject s0 = .ok (.tree g)) (hq : ∀ s ∈ q, ¬ HoldsMap s) (h1 : HoldsWith k s1)
    (hr : ∀ s ∈ r, ¬ HoldsMap s) : Spoilt g k a := by
  obtain ⟨b, h2, h3⟩ := decodes_append hd
  have hf := after_tree h2 hp h0 hq
  cases h3 with
  | ok h4 h5 =>
    obtain ⟨n, r', h6, h7⟩ := into_with h1 h4
    obtain ⟨c, h8, h9⟩ := full_with hf r' h7
    rw [h8] at h6
    cases h6
  | err h4 h5 =>
    obtain ⟨n, r', h6, h7⟩ := into_with h1 h4
    obtain ⟨c, h8, h9⟩ := full_with hf r' h7
    rw [h8] at h6
    cases h6
    obtain rfl := decodes_garbage h5 hr
    exact h9

/-- After that `Build` gives the tree with this entry, and every tree, commit or tag
panics. -/
theorem treeAgain_last {p q r : List Stream} {s0 s1 : Stream} {g : Tree} {k : Bytes} {a : TreeSt}
    (hd : DecodesInto repr grow .fresh (p ++ s0 :: q ++ s1 :: r) a) (hp : ∀ s ∈ p, ¬ HoldsMap s)
    (h0 : parseObject s0 = .ok (.tree g)) (hq : ∀ s ∈ q, ¬ HoldsMap s) (h1 : HoldsWith k s1)
    (hr : ∀ s ∈ r, ¬ HoldsMap s) :
    a.build = .ok (withEmpty g k) ∧ ∀ s out, DecodeInto repr grow s a out → HoldsMap s → out = .panic := by
  have hf := after_with hd hp h0 hq h1 hr
  refine ⟨hf.built, fun s out ho hm => ?_⟩
  rcases map_cases hm with ⟨g', hg⟩ | ⟨k', hk⟩
  · obtain ⟨room, rfl⟩ := into_tree hg ho
    exact value_tree hf.mark g' room
  · obtain ⟨n, r', rfl, _⟩ := into_with hk ho
    exact spoilt_with hf

/-- There are no other sequences of calls without a panic. -/
theorem treeAgain_all {l : List Stream} {a : TreeSt} (hd : DecodesInto repr grow .fresh l a) :
    (∀ s ∈ l, ¬ HoldsMap s) ∨
    (∃ p s0 q, l = p ++ s0 :: q ∧ (∀ s ∈ p, ¬ HoldsMap s) ∧ HoldsTree s0 ∧ ∀ s ∈ q, ¬ HoldsMap s) ∨
    (∃ p s0 q s1 r k, l = p ++ s0 :: q ++ s1 :: r ∧ (∀ s ∈ p, ¬ HoldsMap s) ∧ HoldsTree s0 ∧
      (∀ s ∈ q, ¬ HoldsMap s) ∧ HoldsWith k s1 ∧ ∀ s ∈ r, ¬ HoldsMap s) := by
  rcases first_map l with h | ⟨p, s0, q, rfl, hp, h0⟩
  · exact .inl h
  right
  have ht : HoldsTree s0 := by
    rcases map_cases h0 with h0 | ⟨k, hk⟩
    · exact h0
    · obtain ⟨b, h1, h2⟩ := decodes_append hd
      have h3 := (treeAgain_first h1 hp).2
      cases h2 with
      | ok h4 _ => cases (h3 _ _ h4).2 k hk
      | err h4 _ => cases (h3 _ _ h4).2 k hk
  obtain ⟨g, hg⟩ := ht
  rcases first_map q with h | ⟨q, s1, r, rfl, hq, h1⟩
  · exact .inl ⟨p, s0, q, rfl, hp, ⟨g, hg⟩, h⟩
  right
  have hd' : DecodesInto repr grow .fresh (p ++ s0 :: q ++ s1 :: r) a := by
    rw [List.append_assoc, List.cons_append]; exact hd
  obtain ⟨b, h2, h3⟩ := decodes_append hd'
  have h4 := (treeAgain_then h2 hp hg hq).2
  obtain ⟨k, hk⟩ : ∃ k, HoldsWith k s1 := by
    rcases map_cases h1 with h1 | h1
    · cases h3 with
      | ok h5 _ => cases (h4 _ _ h5).1 h1
      | err h5 _ => cases (h4 _ _ h5).1 h1
    · exact h1
  rcases first_map r with h | ⟨r, s2, r', rfl, hr, h5⟩
  · exact ⟨p, s0, q, s1, r, k, by rw [List.append_assoc, List.cons_append], hp, ⟨g, hg⟩, hq, hk, h⟩
  · exfalso
    have hd2 : DecodesInto repr grow .fresh ((p ++ s0 :: q ++ s1 :: r) ++ s2 :: r') a := by
      rw [List.append_assoc (p ++ s0 :: q), List.cons_append]; exact hd'
    obtain ⟨c, h6, h7⟩ := decodes_append hd2
    have h8 := (treeAgain_last h6 hp hg hq hk hr).2
    cases h7 with
    | ok h9 _ => cases h8 _ _ h9 h5
    | err h9 _ => cases h8 _ _ h9 h5

/-- Every stream does something, as for `again_total`. -/
theorem treeAgain_total (s : Stream) (a : TreeSt) (h : parseObject s ≠ .panic) :
    ∃ out, DecodeInto repr grow s a out := by
  cases hp : parseObject s with
  | panic => exact absurd hp h
  | err e => exact ⟨_, .fails hp⟩
  | ok o =>
    cases o with
    | tree g => exact ⟨_, .tree 0 hp⟩
    | blob x => exact ⟨_, .gives hp nofun (both_blob x).1.choose_spec⟩
    | commit x => exact ⟨_, .gives hp nofun (both_commit x).1.choose_spec⟩
    | tag x => exact ⟨_, .gives hp nofun (both_tag x).1.choose_spec⟩

/-! ## Cases -/

/-- A tree, then a tag: the tag is refused, and the tree has an entry `object`. -/
example : ∃ a g, DecodesInto true id .fresh [treeIn, tagIn] a ∧ parseObject treeIn = .ok (.tree g) ∧
    g.t.length = 1 ∧ a.build = .ok (withEmpty g b!"object") := by
  obtain ⟨g, e, hg, hl⟩ := tree_in
  have hw : HoldsWith b!"object" tagIn := .inr ⟨⟨_, tag_in⟩, rfl⟩
  obtain ⟨out, h1⟩ := treeAgain_total (repr := true) (grow := id) treeIn .fresh (by rw [hg]; exact nofun)
  obtain ⟨b, rfl, -⟩ := ((treeAgain_first (.nil _) nofun).2 _ _ h1).1 g hg
  have hd : DecodesInto true id .fresh ([] ++ treeIn :: []) b := .ok h1 (.nil b)
  obtain ⟨out, h2⟩ := treeAgain_total (repr := true) (grow := id) tagIn b (by rw [tag_in]; exact nofun)
  obtain ⟨c, rfl, h3⟩ := ((treeAgain_then hd nofun hg nofun).2 _ _ h2).2 _ hw
  exact ⟨c, g, .ok h1 (.err h2 (.nil c)), hg, by rw [hl]; rfl, h3⟩

/-- A tag given to a new tree builder. -/
example : DecodeInto true id tagIn .fresh .panic := by
  obtain ⟨out, h1⟩ := treeAgain_total (repr := true) (grow := id) tagIn .fresh (by rw [tag_in]; exact nofun)
  obtain rfl := ((treeAgain_first (.nil _) nofun).2 _ _ h1).2 _ (.inr ⟨⟨_, tag_in⟩, rfl⟩)
  exact h1

example : ¬ HoldsMap ⟨b!"blob 1\x00a", .eof, 4096⟩ := by
  rintro ⟨o, h1, h2⟩
  have : parseObject (σ := Stream) ⟨b!"blob 1\x00a", .eof, 4096⟩ = .ok (.blob b!"blob 1\x00a") := by decide +kernel
  rw [this] at h1
  cases h1
  exact h2 _ rfl

end Verif.Props
