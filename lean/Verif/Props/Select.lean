import Verif.Spec.Select
import Verif.Proofs.Gen
import Verif.Props.Graph
import Verif.Props.Accept
import Verif.Props.Links

/-!
# The links of an object: C99
-/

namespace Verif.Props

open Verif Spec

/-! ## C99 Which links a client finds -/

mutual
theorem selectLinks_reads {n : Node} {d : Data} (h : Reads n d) : Selects n (dataLinks d) := by
  cases h with
  | absent => exact ⟨1, fun f hf => by obtain ⟨f, rfl⟩ : ∃ g, f = g + 1 := ⟨f - 1, by omega⟩; rfl⟩
  | str hk _ =>
    exact ⟨1, fun f hf => by obtain ⟨f, rfl⟩ : ∃ g, f = g + 1 := ⟨f - 1, by omega⟩; rw [selectLinks, hk]; rfl⟩
  | bytes hk _ =>
    exact ⟨1, fun f hf => by obtain ⟨f, rfl⟩ : ∃ g, f = g + 1 := ⟨f - 1, by omega⟩; rw [selectLinks, hk]; rfl⟩
  | link hk hl =>
    refine ⟨1, fun f hf => ?_⟩
    obtain ⟨f, rfl⟩ : ∃ g, f = g + 1 := ⟨f - 1, by omega⟩
    rw [selectLinks, hk]
    simp only [hl, Res.bind_ok]
    rfl
  | list hk hi hr =>
    obtain ⟨f₀, h⟩ := collect_list hr
    refine ⟨f₀ + 1, fun f hf => ?_⟩
    obtain ⟨f, rfl⟩ : ∃ g, f = g + 1 := ⟨f - 1, by omega⟩
    rw [selectLinks, hk]
    simp only [hi]
    rw [h f (by omega), dataLinks]
  | map hk hi hr =>
    obtain ⟨f₀, h⟩ := collect_map hr
    refine ⟨f₀ + 1, fun f hf => ?_⟩
    obtain ⟨f, rfl⟩ : ∃ g, f = g + 1 := ⟨f - 1, by omega⟩
    rw [selectLinks, hk]
    simp only [hi]
    rw [h f (by omega), dataLinks]
theorem collect_list {ns : List Node} {ds : List Data} (h : ReadsList ns ds) :
    ∃ f₀, ∀ f, f₀ ≤ f → collect (selectLinks f) ns = .ok (listLinksOf ds) := by
  cases h with
  | nil => exact ⟨0, fun f _ => by rw [collect, listLinksOf]⟩
  | cons h1 h2 =>
    obtain ⟨f₁, h1⟩ := selectLinks_reads h1
    obtain ⟨f₂, h2⟩ := collect_list h2
    refine ⟨max f₁ f₂, fun f hf => ?_⟩
    rw [collect, h1 f (by omega), Res.bind_ok, h2 f (by omega), Res.bind_ok, listLinksOf]
theorem collect_map {ns : List (Bytes × Node)} {ds : List (Bytes × Data)} (h : ReadsMap ns ds) :
    ∃ f₀, ∀ f, f₀ ≤ f → collect (selectLinks f) (ns.map Prod.snd) = .ok (mapLinksOf ds) := by
  cases h with
  | nil => exact ⟨0, fun f _ => by rw [List.map_nil, collect, mapLinksOf]⟩
  | cons h1 h2 =>
    obtain ⟨f₁, h1⟩ := selectLinks_reads h1
    obtain ⟨f₂, h2⟩ := collect_map h2
    refine ⟨max f₁ f₂, fun f hf => ?_⟩
    rw [List.map_cons, collect, h1 f (by omega), Res.bind_ok, h2 f (by omega), Res.bind_ok, mapLinksOf]
end

theorem selects_unique {n : Node} {ls ls' : List Link} (h : Selects n ls) (h' : Selects n ls') : ls = ls' := by
  obtain ⟨f, h⟩ := h
  obtain ⟨g, h'⟩ := h'
  have := h (max f g) (by omega)
  rw [h' (max f g) (by omega)] at this
  simpa [eq_comm] using this

theorem mapLinksOf_append (a b : List (Bytes × Data)) : mapLinksOf (a ++ b) = mapLinksOf a ++ mapLinksOf b := by
  induction a with
  | nil => simp [mapLinksOf]
  | cons x a ih => obtain ⟨k, d⟩ := x; simp [mapLinksOf, ih]

theorem listLinksOf_map {α : Type} (f : α → Data) (l : List α) :
    listLinksOf (l.map f) = l.flatMap fun a => dataLinks (f a) := by
  induction l with
  | nil => simp [listLinksOf]
  | cons x l ih => simp [listLinksOf, ih]

theorem mapLinksOf_opt {α : Type} (r : Bool) (k : Bytes) (f : α → Data) (hf : ∀ a, dataLinks (f a) = []) (o : Option α) :
    mapLinksOf (optData r k f o) = [] := by
  cases o <;> cases r <;> simp [optData, mapLinksOf, dataLinks, hf]

theorem dataLinks_person (p : PersonInfo) : dataLinks (personData p) = [] := by
  simp [personData, dataLinks, mapLinksOf]

theorem dataLinks_tag (t : Tag) : dataLinks (tagData t) = [t.object] := by
  simp [tagData, dataLinks, mapLinksOf, dataLinks_person]

/-- The links found in an object, in either view: those of the rows of a tree; the
tree, the parents and the objects of the merge tags of a commit; the object of a
tag. -/
theorem select_object (r : Bool) (o : Obj) : Selects (viewOf r o.own) (objLinks o) := by
  have h := selectLinks_reads (reads_own r o.own)
  have he : dataLinks (ownData r o.own) = objLinks o := by
    cases o with
    | blob b => simp [Obj.own, ownData, dataLinks, objLinks]
    | tree t =>
      simp only [Obj.own, ownData, dataLinks, objLinks]
      induction t.t with
      | nil => simp [mapLinksOf]
      | cons x l ih =>
        rw [List.map_cons, mapLinksOf, ih]
        simp [entryData, dataLinks, mapLinksOf]
    | tag t => simp [Obj.own, ownData, dataLinks_tag, objLinks]
    | commit c =>
      simp only [Obj.own, ownData, commitData, dataLinks, mapLinksOf, mapLinksOf_append, objLinks, listLinksOf_map,
        mapLinksOf_opt r _ personData dataLinks_person, mapLinksOf_opt r _ Data.str (fun _ => by simp [dataLinks]),
        dataLinks_tag]
      have h1 : ∀ l : List Tag, (l.flatMap fun a => [a.object]) = l.map (·.object) := by
        intro l; induction l with
        | nil => rfl
        | cons x l ih => simp [ih]
      have h2 : ∀ l : List Bytes, (l.flatMap fun _ => ([] : List Link)) = [] := by
        intro l; induction l with
        | nil => rfl
        | cons x l ih => simp
      have h3 : ∀ l : List Link, (l.flatMap fun a => [a]) = l := by
        intro l; induction l with
        | nil => rfl
        | cons x l ih => simp
      simp [h1, h2, h3]
  rwa [he] at h

theorem lastValue_nil {xs : List Bytes} {l : Link} (h : LastValue RefLink xs .nil l) : l = .nil ↔ xs = [] := by
  obtain ⟨ys, hp, rfl⟩ := h
  constructor
  · intro hn
    cases xs with
    | nil => rfl
    | cons x xs =>
      exfalso
      have hall : ∀ (xs : List Bytes) (ys : List Link), Pairs RefLink xs ys → ∀ y ∈ ys, y ≠ .nil := by
        intro xs
        induction xs with
        | nil => intro ys h y hy; cases ys with
          | nil => cases hy
          | cons _ _ => exact h.elim
        | cons x xs ih => intro ys h y hy; cases ys with
          | nil => cases hy
          | cons z zs =>
            rcases List.mem_cons.1 hy with rfl | hy
            · obtain ⟨sha, _, rfl⟩ := h.1
              simp [gitLink]
            · exact ih zs h.2 y hy
      cases hl : ys.getLast? with
      | none =>
        rw [List.getLast?_eq_none_iff] at hl
        subst hl
        exact hp.elim
      | some y =>
        rw [hl] at hn
        exact hall _ _ hp y (List.mem_of_getLast? hl) hn
  · rintro rfl
    cases ys with
    | nil => rfl
    | cons _ _ => exact hp.elim

/-- The links found in a commit: a link that names nothing is among them exactly if
the text has no line with a tree. -/
theorem select_missing_commit (b : Bytes) (N : Nat) (hN : 2 ≤ N) (c : Commit)
    (h : parseObject (σ := Stream) ⟨b, .eof, N⟩ = .ok (.commit c)) :
    ∃ d z body bs m, SizeField d z ∧ b = b!"commit " ++ d ++ NUL :: body ∧ Blocks N body bs m ∧
      ∀ r ls, Selects (viewOf r (.commit c)) ls → (.nil ∈ ls ↔ behind b!"tree " (plainLines bs) = []) := by
  obtain ⟨_, d, z, body, bs, m, hd, hb, hbl, hm⟩ := (commit_accepts _ hN c).1 h
  refine ⟨d, z, body, bs, m, hd, hb, hbl, fun r ls hs => ?_⟩
  rw [selects_unique hs (select_object r (.commit c)), ← lastValue_nil hm.tree]
  have hno := (decoded_links _ hN _ h).2
  simp only [listLinks] at hno
  simp only [objLinks, List.mem_cons]
  constructor
  · rintro (h | h)
    · exact h.symm
    · exact absurd rfl (hno _ h)
  · intro h
    exact .inl h.symm

/-- The same for the object of a tag. -/
theorem select_missing_tag (b : Bytes) (N : Nat) (hN : 2 ≤ N) (t : Tag)
    (h : parseObject (σ := Stream) ⟨b, .eof, N⟩ = .ok (.tag t)) :
    ∃ d body hs m, NUL ∉ d ∧ b = b!"tag " ++ d ++ NUL :: body ∧ Head N body hs m ∧
      ∀ r ls, Selects (viewOf r (.tag t)) ls → (.nil ∈ ls ↔ behind b!"object " hs = []) := by
  obtain ⟨_, d, body, hs, m, hd, hb, hbl, hm⟩ := (tag_accepts _ hN t).1 h
  refine ⟨d, body, hs, m, hd, hb, hbl, fun r ls hs => ?_⟩
  rw [selects_unique hs (select_object r (.tag t)), ← lastValue_nil hm.object]
  simp [objLinks, eq_comm]

/-- In trees and blobs that were read, there is none. -/
theorem select_missing_never (b : Bytes) (N : Nat) (hN : 2 ≤ N) (o : Obj)
    (h : parseObject (σ := Stream) ⟨b, .eof, N⟩ = .ok o) (ho : (∃ t, o = .tree t) ∨ ∃ c, o = .blob c) (r : Bool)
    (ls : List Link) (hs : Selects (viewOf r o.own) ls) : .nil ∉ ls := by
  rw [selects_unique hs (select_object r o)]
  rcases ho with ⟨t, rfl⟩ | ⟨c, rfl⟩
  · intro hn
    exact (decoded_links _ hN _ h).2 _ hn rfl
  · simp [objLinks]

/-! ### The graph -/

theorem selects_bytes {n : Node} {b : Bytes} (h : n.asBytes = .ok b) : Selects n [] := by
  refine ⟨1, fun f hf => ?_⟩
  obtain ⟨f, rfl⟩ : ∃ g, f = g + 1 := ⟨f - 1, by omega⟩
  have hk : n.kind = .bytes := by
    cases n with
    | own v => cases v <;> first | rfl | cases h
    | repr v => cases v <;> first | rfl | cases h
    | bytes b => rfl
    | _ => cases h
  rw [selectLinks, hk]

theorem selects_nodeOf {n : Node} {o : Obj} (h : NodeOf n o.own) : Selects n (objLinks o) := by
  rcases h with rfl | rfl
  · exact select_object false o
  · have := select_object true o
    cases o with
    | blob b => exact selects_bytes rfl
    | _ => exact this

/-- The links found in a node that shows an object are its references. -/
theorem select_shows {o : GitObj} {n : Node} (ho : o.Ok) (h : Shows o n) : Selects n (o.refs.map gitLink) := by
  cases h with
  | blob c out n h hn => exact selects_bytes hn
  | tree es t n h ha hn =>
    have := selects_nodeOf (o := .tree t) hn
    simp only [objLinks, h, List.map_map] at this
    simpa [GitObj.refs, Function.comp_def, Entry.row] using this
  | commit is msg n hn =>
    have := selects_nodeOf (o := .commit (commitOf is msg)) hn
    obtain ⟨sha, hsha⟩ := getLast_some ho.2.2
    have hm : (commitOf is msg).mergetag.map (·.object) = (mergeRefs is).map gitLink := by
      apply List.ext_getElem?
      intro i
      rw [List.getElem?_map, List.getElem?_map]
      cases hx : (mergeRefs is)[i]? with
      | some sha =>
        obtain ⟨t, ht, hto⟩ := (commitOf_merge ho.2.1 msg i sha).1 hx
        rw [ht]; simp [hto]
      | none =>
        cases hy : (commitOf is msg).mergetag[i]? with
        | none => rfl
        | some t =>
          exfalso
          have hm : (commitOf is msg).mergetag = is.filterMap fun | .mergetag _ t => some t | _ => none := by
            show (is.foldl Item.apply noCommit).mergetag = _
            rw [foldl_mergetag]; rfl
          have hmem := List.mem_of_getElem? hy
          rw [hm, List.mem_filterMap] at hmem
          obtain ⟨j, hj, hjt⟩ := hmem
          have hok := itemsOk_mem is _ ho.2.1 j hj
          cases j <;> simp at hjt
          subst hjt
          obtain ⟨sha, _, hl⟩ := hok.2.object
          have := (commitOf_merge ho.2.1 msg i sha).2 ⟨_, hy, hl⟩
          rw [hx] at this
          cases this
    simp only [objLinks, commitOf_tree msg hsha, commitOf_parents, hm] at this
    simpa [GitObj.refs, hsha] using this
  | tag is msg n hn =>
    have := selects_nodeOf (o := .tag (tagOf is (msg.getD []))) hn
    obtain ⟨sha, hsha⟩ := getLast_some ho.2.2
    simp only [objLinks, tagOf_object _ hsha] at this
    simpa [GitObj.refs, hsha] using this

/-- Loading links and selecting theirs, over and over, a client reaches exactly
what the objects of the repository refer to. -/
theorem follow_exact {L : LinkSys} {R : Bytes → Option GitObj} (hs : Stores L R) (pol : TreeAsm → Nat) (a : Bytes)
    (l : Link) : Followed L pol (gitLink a) l ↔ ∃ b, l = gitLink b ∧ Reaches R a b := by
  constructor
  · intro h
    generalize hx : gitLink a = x at h
    induction h generalizing a with
    | here y => exact ⟨a, hx.symm, .here a⟩
    | step x y z n ls hl hsel hy hr ih =>
      subst hx
      cases hR : R a with
      | none =>
        obtain ⟨e, he⟩ := (load_stored hs pol a .any).1 hR
        rw [show wantProto .any = none from rfl, hl] at he
        cases he
      | some o =>
        obtain ⟨k, hk, hshow⟩ := ((load_stored hs pol a .any).2 o hR).1 trivial
        rw [show wantProto .any = none from rfl, hl] at hk
        cases hk
        rw [selects_unique hsel (select_shows (hs.there a o hR).1 hshow), List.mem_map] at hy
        obtain ⟨b, hb, rfl⟩ := hy
        obtain ⟨c, rfl, hc⟩ := ih b rfl
        exact ⟨c, rfl, .step a b c o hR hb hc⟩
  · rintro ⟨b, rfl, h⟩
    induction h with
    | here a => exact .here _
    | step a b c o hR hb hr ih =>
      obtain ⟨k, hk, hshow⟩ := ((load_stored hs pol a .any).2 o hR).1 trivial
      exact .step _ (gitLink b) _ k _ hk (select_shows (hs.there a o hR).1 hshow) (List.mem_map_of_mem hb) ih

/-- Links are found in the order of the fields, with repetitions; a missing tree is
a link that names nothing. -/
example : objLinks (.commit { noCommit with parents := [gitLink [2], gitLink [2]], mergetag := [{ noTag with object := gitLink [3] }] }) =
    [.nil, gitLink [2], gitLink [2], gitLink [3]] := rfl

example : ∃ c, parseObject (σ := Stream) ⟨b!"commit 0\x00parent 0123456789ABCDEF012345678901234567890123\n", .eof, 4096⟩ =
    .ok (.commit c) ∧ .nil ∈ objLinks (.commit c) :=
  ⟨{ noCommit with parents := [gitLink [1, 35, 69, 103, 137, 171, 205, 239, 1, 35, 69, 103, 137, 1, 35, 69, 103, 137, 1, 35]] },
    by decide +kernel, by simp [objLinks, noCommit]⟩

/-- From the tag of the sample repository a client reaches the blob in the tree of
the commit; the link of the second commit to a commit as its tree is no obstacle. -/
example (pol : TreeAsm → Nat) : Followed exLinkSys pol (gitLink (exSha 80)) (gitLink (exSha 12)) :=
  (follow_exact exStores pol _ _).2 ⟨_, rfl,
    .step _ (exSha 208) _ exTag rfl (by decide +kernel)
    (.step _ (exSha 160) _ exWrong rfl (by decide +kernel)
    (.step _ (exSha 37) _ exCommit rfl (by decide +kernel)
    (.step _ (exSha 12) _ exTree rfl (by decide +kernel) (.here _))))⟩

end Verif.Props
