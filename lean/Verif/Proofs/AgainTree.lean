import Verif.Spec.AgainTree
import Verif.Proofs.Again
import Verif.Proofs.TreeForeign

/-!
# Several objects through one tree builder: lemmas
-/

namespace Verif.Handles

open Calls Spec

theorem ready_mark {s s0 : TreeSt} (h : s.ready = some s0) : s0.mark = s.mark := by
  unfold TreeSt.ready at h
  cases hs : s.state <;> rw [hs] at h
  · cases h; rfl
  · cases h
  · cases h
  · unfold TreeSt.tidyValue at h
    dsimp only at h
    split at h
    · cases h; rfl
    · cases h
  · cases h

/-- One turn of the loop, with a value that is no entry and no map. -/
theorem row_bad (repr : Bool) (grow : Nat → Nat) {s : TreeSt} {xs : List MVal} {mm : List (Bytes × Ptr)}
    (hs : s.state = .initial ∧ s.cm = .absent ∨ s.state = .midValue ∧ s.cm = .value) (ht : s.va.ty = .treeEntry)
    (hx : s.mem.at' s.tab.arr = .arr xs) (hl : s.tab.len ≤ xs.length) (hr : s.tab.arr < s.mem.next)
    (hm : s.map = some mm) (k : Bytes) (n : Nd) (r : Ents)
    (hn : ∀ a : St, a.obj.ty = .treeEntry → assignNd repr grow n a = .err .wrongKind a) :
    ∃ s' : TreeSt, s.assignRows repr grow (.cons k n r) = .err .wrongKind { s' with cm := .absent } ∧ s'.mark = s.mark ∧
      Added s s' xs k ⟨[], .nil⟩ := by
  obtain ⟨s0, h1, h2, h3, h4, h5, h6⟩ := ready_at hs
  obtain ⟨f1, f2, f3, f4, f5, f6, f7⟩ := append_fields grow (rowM Row.zero) s0
  rw [← h2, ← h3] at hx
  rw [← h3] at hl
  rw [← h2, ← h3] at hr
  obtain ⟨ys, a1, a2, a3, a4, a5, a6, a7⟩ := append_at grow (rowM Row.zero) hx hl hr
  generalize hu : s0.append grow (rowM Row.zero) = u at f1 f2 f3 f4 f5 f6 f7 a1 a4 a5 a6 a7
  have hlt : s0.tab.len < ys.length := (List.getElem?_eq_some_iff.1 a3).1
  have hp : ∀ i, u.last i = (u.tab.arr, [s0.tab.len, i]) := last_of f7
  have w1 : (u.mem.write (u.last 0) (.text k)).at' u.tab.arr =
      .arr (ys.set s0.tab.len (.struct [.text k, entryM Row.zero.2])) := by
    rw [hp]
    simp only [Mem.write, if_pos, a1, MVal.set, a3, Option.getD_some, rowM, List.set_cons_zero]
  have wo : ∀ q, q ≠ u.tab.arr →
      (u.mem.write (u.last 0) (.text k)).at' q = u.mem.at' q := by
    intro q hq
    rw [hp, write_other _ _ hq]
  have hva : (u.va.lend (some (u.last 1)) .parent).ty = .treeEntry := by
    rw [lend_ty_eq, f6, h6, ht]
  refine ⟨{ u with
      state := .midValue, kw := none, cm := .value, map := some ((k, u.last 1) :: mm)
      mem := u.mem.write (u.last 0) (.text k)
      va := u.va.lend (some (u.last 1)) .parent }, ?_, ?_, ?_⟩
  · have e1 : s.assembleKey grow = .ok { u with state := .midKey, kw := some (u.last 0) } := by
      unfold TreeSt.assembleKey
      rw [h1]
      simp only [hu]
    have e2 : TreeSt.keyAssign k { u with state := .midKey, kw := some (u.last 0) } =
        .ok { u with state := .midKey, kw := some (u.last 0), mem := u.mem.write (u.last 0) (.text k), cm := .value } := by
      unfold TreeSt.keyAssign
      simp only
      rw [if_neg (by rw [f4, h5]; decide)]
    have e3 : TreeSt.assembleValue { u with
          state := .midKey, kw := some (u.last 0), mem := u.mem.write (u.last 0) (.text k), cm := .value } =
        .ok { u with
          state := .midValue, kw := none, mem := u.mem.write (u.last 0) (.text k), cm := .absent
          map := some ((k, u.last 1) :: mm), va := u.va.lend (some (u.last 1)) .parent } := by
      have hr : (u.mem.write (u.last 0) (.text k)).read (u.last 0) = .text k := by
        unfold Mem.read
        generalize hμ : u.mem.write (u.last 0) (.text k) = μ at w1
        rw [hp]
        dsimp only
        rw [w1]
        simp only [MVal.get, List.getElem?_set_self hlt, Option.getD_some, List.getElem?_cons_zero]
      unfold TreeSt.assembleValue
      simp only [if_pos]
      have hl0 : ∀ μ mk m st c kw va i, TreeSt.last ⟨μ, mk, u.tab, m, st, c, kw, va⟩ i = u.last i :=
        fun _ _ _ _ _ _ _ _ => rfl
      simp only [hl0, hr, f2, h4, hm]
    simp only [TreeSt.assignRows, TreeRes.andThen]
    rw [e1]
    simp only
    rw [e2]
    simp only
    rw [e3]
    simp only [TreeSt.withEntry, hn ⟨_, _, u.va.lend (some (u.last 1)) .parent⟩ hva]
  · show u.mark = s.mark
    rw [f1, ready_mark h1]
  · refine ⟨rfl, rfl, hva, ?_, ⟨_, w1, ?_⟩, a4, ?_, ?_, ?_, ?_, ?_⟩
    · rw [← h3]; exact f7
    · show (ys.set s0.tab.len (.struct [.text k, entryM Row.zero.2])).take u.tab.len = _
      rw [f7, ← h3, List.take_add_one, List.getElem?_set_self hlt, take_set, a2]
      rfl
    · rw [← h2]; exact a5
    · rw [← h2, ← h3]; exact a6.imp id And.left
    · rw [hm, ← h3]
      show some ((k, u.last 1) :: mm) = some ((k, (u.tab.arr, [s0.tab.len, 1])) :: mm)
      rw [hp]
    · intro q hq hne
      rw [← h2] at hq
      rw [← h3] at hne
      rw [← h2, ← a7 q hq hne]
      by_cases hqu : q = u.tab.arr
      · rcases a6 with a6 | ⟨a6, _⟩
        · exact absurd (hqu.trans a6) hne
        · rw [a6] at hqu; omega
      · exact wo q hqu
    · rw [← h3]
      rcases a6 with a6 | ⟨a6, a8⟩
      · refine ⟨_, by rw [← a6]; exact w1, ?_⟩
        rw [take_set, a2]
      · refine ⟨xs, ?_, rfl⟩
        rw [← a8]
        refine wo _ ?_
        rw [a6]
        omega

/-- A tree builder that was given a tree. -/
structure Stocked (g : Tree) (a : TreeSt) : Prop where
  grown : Grown g 1 a []
  state : a.state = .initial
  cm : a.cm = .absent
  mark : a.mark = .value

/-- A tree builder that is stuck in the middle of an entry. -/
structure Spoilt (g : Tree) (k : Bytes) (a : TreeSt) : Prop where
  state : a.state = .midValue
  cm : a.cm = .absent
  mark : a.mark = .value
  built : a.build = .ok (withEmpty g k)

theorem full_built {g : Tree} {a : TreeSt} (h : Stocked g a) : a.build = .ok g := by
  have := (grown_shown h.grown 0).1
  unfold TreeSt.build
  rw [if_pos h.mark]
  simp only [List.reverse_nil, List.nil_append, List.append_nil] at this
  exact congrArg Res.ok this

variable {repr : Bool} {grow : Nat → Nat}

/-- What a commit or tag comes down to. -/
theorem with_rows {o : Verif.Obj} {d : Nd} {k : Bytes}
    (hk : (∃ c, o = .commit c) ∧ k = b!"tree" ∨ (∃ g, o = .tag g) ∧ k = b!"object") (hd : Offers (.own o.own) d) :
    ∃ n r, (∀ a : TreeSt, a.assignNode repr grow d = a.assignRows repr grow (.cons k n r)) ∧
      ∀ a : St, a.obj.ty = .treeEntry → assignNd repr grow n a = .err .wrongKind a := by
  have hlink : ∀ {v : Verif.Own} {u : T} {n : Nd} {l : Link}, v.proto = protoOf u → u ≠ .treeEntry →
      v.kind = .link → Offers (.own v) n → ∀ a : St, a.obj.ty = .treeEntry → assignNd repr grow n a = .err .wrongKind a := by
    intro v u n l hu hne hkind hn a ha
    obtain ⟨d', rfl, h2⟩ := offers_own hu hn
    have hk' : (Node.own v).kind = .link := hkind
    cases h2 with
    | text h _ => rw [hk'] at h; cases h
    | link h _ =>
      unfold assignNd
      rw [if_neg (by rw [ha]; exact hne)]
      simp only [assignNd, ha]
      rfl
    | other h => rw [hk'] at h; rcases h with h | h | h | h <;> cases h
    | list h _ _ => rw [hk'] at h; cases h
    | map h _ _ => rw [hk'] at h; cases h
  rcases hk with ⟨⟨c, rfl⟩, rfl⟩ | ⟨⟨c, rfl⟩, rfl⟩
  · obtain ⟨d', rfl, h6⟩ := offers_own (u := .commit) rfl hd
    obtain ⟨ds', rfl, h7⟩ := plain_own_map rfl h6
    cases h7 with
    | cons h8 h9 => exact ⟨_, _, fun a => rfl, hlink (u := .treeLink) (l := .nil) rfl (by decide) rfl h8⟩
  · obtain ⟨d', rfl, h6⟩ := offers_own (u := .tag) rfl hd
    obtain ⟨ds', rfl, h7⟩ := plain_own_map rfl h6
    cases h7 with
    | cons h8 h9 => exact ⟨_, _, fun a => rfl, hlink (u := .link) (l := .nil) rfl (by decide) rfl h8⟩

/-- No object, or a blob. -/
theorem into_garbage {s : Stream} {a : TreeSt} {out : TreeRes} (h : ¬ HoldsMap s) (ho : DecodeInto repr grow s a out) :
    ∃ e, out = .err e a := by
  cases ho with
  | fails he => exact ⟨_, rfl⟩
  | tree room hp => exact absurd ⟨_, hp, nofun⟩ h
  | @gives o d hp hn hd =>
    cases o with
    | blob x =>
      cases hd with
      | @own _ u _ h1 _ => exact absurd h1 (by cases u <;> simp [Verif.Obj.own, Verif.Own.proto, protoOf])
      | plain _ h2 =>
        cases h2 with
        | text h _ => cases h
        | link h _ => cases h
        | other _ => exact ⟨_, rfl⟩
        | list h _ _ => cases h
        | map h _ _ => cases h
    | tree x => exact absurd rfl (hn x)
    | commit x => exact absurd ⟨_, hp, nofun⟩ h
    | tag x => exact absurd ⟨_, hp, nofun⟩ h

/-- A tree. -/
theorem into_tree {s : Stream} {a : TreeSt} {g : Tree} {out : TreeRes} (h : parseObject s = .ok (.tree g))
    (ho : DecodeInto repr grow s a out) : ∃ room, out = a.assignTree g room := by
  cases ho with
  | fails he => rw [he] at h; cases h
  | tree room hp => rw [hp] at h; cases h; exact ⟨room, rfl⟩
  | gives hp hn hd => rw [hp] at h; cases h; exact absurd rfl (hn g)

/-- A commit or tag. -/
theorem into_with {s : Stream} {a : TreeSt} {k : Bytes} {out : TreeRes} (h : HoldsWith k s)
    (ho : DecodeInto repr grow s a out) :
    ∃ n r, out = a.assignRows repr grow (.cons k n r) ∧
      ∀ a : St, a.obj.ty = .treeEntry → assignNd repr grow n a = .err .wrongKind a := by
  cases ho with
  | fails he => rcases h with ⟨⟨c, h⟩, _⟩ | ⟨⟨c, h⟩, _⟩ <;> (rw [he] at h; cases h)
  | tree room hp => rcases h with ⟨⟨c, h⟩, _⟩ | ⟨⟨c, h⟩, _⟩ <;> (rw [hp] at h; cases h)
  | @gives o d hp hn hd =>
    have : (∃ c, o = .commit c) ∧ k = b!"tree" ∨ (∃ g, o = .tag g) ∧ k = b!"object" := by
      rcases h with ⟨⟨c, h⟩, hk⟩ | ⟨⟨c, h⟩, hk⟩ <;> (rw [hp] at h; cases h)
      · exact .inl ⟨⟨c, rfl⟩, hk⟩
      · exact .inr ⟨⟨c, rfl⟩, hk⟩
    obtain ⟨n, r, h1, h2⟩ := with_rows (repr := repr) (grow := grow) this hd
    exact ⟨n, r, h1 a, h2⟩

theorem fresh_with {k : Bytes} {n : Nd} {r : Ents} : TreeSt.fresh.assignRows repr grow (.cons k n r) = .panic := rfl

theorem fresh_tree (g : Tree) (room : Nat) : ∃ b, TreeSt.fresh.assignTree g room = .ok b ∧ Stocked g b := by
  obtain ⟨b, h1, h2, _, h3⟩ := given_grown g room
  refine ⟨b, h1, h3, ?_, ?_, h2⟩ <;> (cases h1; rfl)

theorem full_with {g : Tree} {a : TreeSt} (h : Stocked g a) {k : Bytes} {n : Nd} (r : Ents)
    (hn : ∀ a : St, a.obj.ty = .treeEntry → assignNd repr grow n a = .err .wrongKind a) :
    ∃ b, a.assignRows repr grow (.cons k n r) = .err .wrongKind b ∧ Spoilt g k b := by
  obtain ⟨xs, h1, h2⟩ := h.grown.tab
  obtain ⟨mm, h3, -, -⟩ := h.grown.map
  have hl : a.tab.len ≤ xs.length := by
    have := congrArg List.length h2
    rw [List.length_take, List.length_map, List.length_append, ← h.grown.len] at this
    omega
  obtain ⟨s', e1, hm, ha⟩ := row_bad repr grow h.grown.turn h.grown.ty h1 hl h.grown.root h3 k n r hn
  have hg := grown_added h.grown h1 h2 ha
  refine ⟨_, e1, ha.state, rfl, hm.trans h.mark, ?_⟩
  have := (grown_shown hg 0).1
  unfold TreeSt.build
  rw [if_pos (hm.trans h.mark)]
  exact congrArg Res.ok this

theorem spoilt_with {g : Tree} {k : Bytes} {a : TreeSt} (h : Spoilt g k a) {k' : Bytes} {n : Nd} {r : Ents} :
    a.assignRows repr grow (.cons k' n r) = .panic := by
  have hr : a.ready = none := by
    unfold TreeSt.ready
    rw [h.state]
    dsimp only [TreeSt.tidyValue]
    rw [if_neg (by rw [h.cm]; decide)]
  simp only [TreeSt.assignRows, TreeSt.assembleKey, hr, TreeRes.andThen]

theorem value_tree {a : TreeSt} (h : a.mark = .value) (g : Tree) (room : Nat) : a.assignTree g room = .panic := by
  unfold TreeSt.assignTree
  rw [if_neg (by rw [h]; decide)]

theorem map_cases {s : Stream} (h : HoldsMap s) : (∃ g, parseObject s = .ok (.tree g)) ∨ ∃ k, HoldsWith k s := by
  obtain ⟨o, h1, h2⟩ := h
  cases o with
  | blob x => exact absurd rfl (h2 x)
  | tree g => exact .inl ⟨g, h1⟩
  | commit c => exact .inr ⟨_, .inl ⟨⟨c, h1⟩, rfl⟩⟩
  | tag c => exact .inr ⟨_, .inr ⟨⟨c, h1⟩, rfl⟩⟩

theorem with_map {s : Stream} {k : Bytes} (h : HoldsWith k s) : HoldsMap s := by
  rcases h with ⟨⟨c, h⟩, _⟩ | ⟨⟨c, h⟩, _⟩ <;> exact ⟨_, h, nofun⟩

/-- Streams without maps change nothing. -/
theorem decodes_garbage {l : List Stream} {a b : TreeSt} (hd : DecodesInto repr grow a l b)
    (h : ∀ s ∈ l, ¬ HoldsMap s) : b = a := by
  induction hd with
  | nil a => rfl
  | @ok s r a b c h1 _ ih =>
    obtain ⟨e, h2⟩ := into_garbage (h s (List.mem_cons_self ..)) h1
    cases h2
  | @err s r a b c e h1 _ ih =>
    obtain ⟨e, h2⟩ := into_garbage (h s (List.mem_cons_self ..)) h1
    cases h2
    exact ih fun s hs => h s (List.mem_cons_of_mem _ hs)

theorem decodes_append {p q : List Stream} {a c : TreeSt} (hd : DecodesInto repr grow a (p ++ q) c) :
    ∃ b, DecodesInto repr grow a p b ∧ DecodesInto repr grow b q c := by
  induction p generalizing a with
  | nil => exact ⟨a, .nil a, hd⟩
  | cons s p ih =>
    cases hd with
    | ok h1 h2 =>
      obtain ⟨b, h3, h4⟩ := ih h2
      exact ⟨b, .ok h1 h3, h4⟩
    | err h1 h2 =>
      obtain ⟨b, h3, h4⟩ := ih h2
      exact ⟨b, .err h1 h3, h4⟩

/-- The first stream with a map. -/
theorem first_map : (l : List Stream) → (∀ s ∈ l, ¬ HoldsMap s) ∨
    ∃ p s q, l = p ++ s :: q ∧ (∀ s ∈ p, ¬ HoldsMap s) ∧ HoldsMap s
  | [] => .inl nofun
  | s :: l => by
    by_cases h : HoldsMap s
    · exact .inr ⟨[], s, l, rfl, nofun, h⟩
    · rcases first_map l with h1 | ⟨p, s', q, rfl, h1, h2⟩
      · exact .inl fun x hx => (List.mem_cons.mp hx).elim (fun e => e ▸ h) (h1 x)
      · exact .inr ⟨s :: p, s', q, rfl, fun x hx => (List.mem_cons.mp hx).elim (fun e => e ▸ h) (h1 x), h2⟩

end Verif.Handles
