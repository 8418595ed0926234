import Verif.Spec.Order
import Verif.Proofs.Items
import Verif.Props.Headers

/-!
# Which commits and tags are reproduced byte for byte: C61
-/

namespace Verif.Props

open Verif Spec

/-! ## Helpers -/

/-- The header items of `commitBody`. -/
def encItems (c : Commit) (author committer : PersonInfo) : List Item :=
  [.tree (hex (digest c.tree)) (digest c.tree)]
  ++ c.parents.map (fun p => .parent (hex (digest p)) (digest p))
  ++ [.author author, .committer committer]
  ++ (c.encoding.map Item.encoding).toList
  ++ c.mergetag.map (fun t => .mergetag (hex (digest t.object)) t)
  ++ (c.signature.map Item.sig).toList
  ++ c.other.map Item.other

theorem encItems_body (c : Commit) (a k : PersonInfo) :
    itemsBody (encItems c a k) c.message = commitBody c a k := by
  unfold itemsBody itemsText encItems commitBody
  simp only [List.flatMap_append, List.flatMap_cons, List.flatMap_nil, List.append_nil,
    List.flatMap_map, Item.text]
  have h1 : (c.encoding.map Item.encoding).toList.flatMap Item.text = encodingText c.encoding := by
    cases c.encoding <;> simp [encodingText, Item.text]
  have h2 : (c.signature.map Item.sig).toList.flatMap Item.text = sigText c.signature := by
    cases c.signature <;> simp [sigText, Item.text]
  rw [h1, h2]
  simp [unlines, List.flatMap_map]
  rfl

theorem foldl_author_mem (is : List Item) (c : Commit) (a : PersonInfo)
    (h : (is.foldl Item.apply c).author = some a) : c.author = some a ∨ .author a ∈ is := by
  induction is generalizing c with
  | nil => exact .inl h
  | cons i is ih =>
    rcases ih _ h with h | h
    · cases i with
      | author p => exact .inr (by simp [Item.apply] at h; simp [h])
      | _ => exact .inl h
    · exact .inr (by simp [h])

theorem foldl_committer_mem (is : List Item) (c : Commit) (a : PersonInfo)
    (h : (is.foldl Item.apply c).committer = some a) : c.committer = some a ∨ .committer a ∈ is := by
  induction is generalizing c with
  | nil => exact .inl h
  | cons i is ih =>
    rcases ih _ h with h | h
    · cases i with
      | committer p => exact .inr (by simp [Item.apply] at h; simp [h])
      | _ => exact .inl h
    · exact .inr (by simp [h])

theorem foldl_encoding_mem (is : List Item) (c : Commit) (a : Bytes)
    (h : (is.foldl Item.apply c).encoding = some a) : c.encoding = some a ∨ .encoding a ∈ is := by
  induction is generalizing c with
  | nil => exact .inl h
  | cons i is ih =>
    rcases ih _ h with h | h
    · cases i with
      | encoding p => exact .inr (by simp [Item.apply] at h; simp [h])
      | _ => exact .inl h
    · exact .inr (by simp [h])

theorem foldl_sig_mem (is : List Item) (c : Commit) (a : Bytes)
    (h : (is.foldl Item.apply c).signature = some a) : c.signature = some a ∨ .sig a ∈ is := by
  induction is generalizing c with
  | nil => exact .inl h
  | cons i is ih =>
    rcases ih _ h with h | h
    · cases i with
      | sig p => exact .inr (by simp [Item.apply] at h; simp [h])
      | _ => exact .inl h
    · exact .inr (by simp [h])

/-- Everything but the tree fits the format. -/
theorem encItems_ok {N : Nat} {is : List Item} (h : ItemsOk N is) (msg : Bytes) (a k : PersonInfo)
    (ha : (commitOf is msg).author = some a) (hk : (commitOf is msg).committer = some k)
    (ht : IsGitLink (commitOf is msg).tree) : ∀ i ∈ encItems (commitOf is msg) a k, i.Ok N := by
  have hm := itemsOk_mem is N h
  intro i hi
  unfold encItems at hi
  simp only [List.mem_append, List.mem_cons, List.not_mem_nil, or_false, List.mem_map,
    Option.mem_toList, Option.map_eq_some_iff] at hi
  rcases hi with (((((rfl | ⟨p, hp, rfl⟩) | rfl | rfl) | ⟨e, he, rfl⟩) | ⟨t, ht, rfl⟩) | ⟨g, hg, rfl⟩) | ⟨l, hl, rfl⟩
  · exact ref_hex _ (digest_length ht)
  · have hpar : (commitOf is msg).parents = (is.foldl Item.apply noCommit).parents := rfl
    rw [hpar, foldl_parents] at hp
    simp only [noCommit, List.nil_append, List.mem_filterMap] at hp
    obtain ⟨i, hi, hp⟩ := hp
    cases i with
    | parent x sha =>
      simp only [Option.some.injEq] at hp
      exact ref_hex _ (digest_length ⟨sha, (hm _ hi).2, hp.symm⟩)
    | _ => simp at hp
  · rcases foldl_author_mem is noCommit a ha with h | h
    · simp [noCommit] at h
    · exact hm _ h
  · rcases foldl_committer_mem is noCommit k hk with h | h
    · simp [noCommit] at h
    · exact hm _ h
  · rcases foldl_encoding_mem is noCommit e he with h | h
    · simp [noCommit] at h
    · exact hm _ h
  · have hmt : (commitOf is msg).mergetag = (is.foldl Item.apply noCommit).mergetag := rfl
    rw [hmt, foldl_mergetag] at ht
    simp only [noCommit, List.nil_append, List.mem_filterMap] at ht
    obtain ⟨i, hi, ht⟩ := ht
    cases i with
    | mergetag x t' =>
      simp only [Option.some.injEq] at ht
      subst ht
      exact ⟨ref_hex _ (digest_length (hm _ hi).2.object), (hm _ hi).2⟩
    | _ => simp at ht
  · rcases foldl_sig_mem is noCommit g hg with h | h
    · simp [noCommit] at h
    · exact hm _ h
  · have hmt : (commitOf is msg).other = (is.foldl Item.apply noCommit).other := rfl
    rw [hmt, foldl_other] at hl
    simp only [noCommit, List.nil_append, List.mem_filterMap] at hl
    obtain ⟨i, hi, hl⟩ := hl
    cases i with
    | other l' =>
      simp only [Option.some.injEq] at hl
      subst hl
      exact hm _ hi
    | _ => simp at hl

/-- Without unknown headers every list of well-formed items is well formed. -/
theorem itemsOk_noOther {N : Nat} {is : List Item} (h : ∀ i ∈ is, i.Ok N) (ho : ∀ i ∈ is, ∀ l, i ≠ .other l) :
    ItemsOk N is := itemsOk_of_mem N is h (.inl ho)

/-- A text that begins as the encoder's begins with a tree. -/
theorem tree_first {N : Nat} (hN : 4096 ≤ N) {is : List Item} (h : ItemsOk N is) {x R m : Bytes} (hx : LF ∉ x)
    (he : itemsText is ++ LF :: m = (b!"tree " ++ x) ++ LF :: R) : ∃ sha ks, is = .tree x sha :: ks ∧ Ref x sha := by
  cases is with
  | nil => simp [itemsText] at he; exact absurd he.1 (by decide)
  | cons i is =>
    rw [itemsText_cons, List.append_assoc, item_text, List.append_assoc, List.cons_append] at he
    have hf := (line_split (item_first_noLF hN h.1) (by simp [hx]; decide) he).1
    have hk := lineKind_first h.1
    rw [hf] at hk
    have h0 : lineKind (b!"tree " ++ x) = 0 := by unfold lineKind; exact if_pos ⟨x, rfl⟩
    rw [h0] at hk
    cases i <;> first | (simp [itemKind] at hk; done) | skip
    case tree y sha =>
      obtain rfl := List.append_cancel_left hf
      exact ⟨sha, is, rfl, h.1⟩

theorem itemsOk_right {N : Nat} (is js : List Item) (h : ItemsOk N (is ++ js)) : ItemsOk N js := by
  induction is with
  | nil => exact h
  | cons i is ih => exact ih h.2.2

/-- The items that the encoder writes before the merge tags. -/
def encFront (c : Commit) (author committer : PersonInfo) : List Item :=
  [.tree (hex (digest c.tree)) (digest c.tree)]
  ++ c.parents.map (fun p => .parent (hex (digest p)) (digest p))
  ++ [.author author, .committer committer]
  ++ (c.encoding.map Item.encoding).toList

theorem encFront_kinds (c : Commit) (a k : PersonInfo) :
    ∀ i ∈ encFront c a k, (∀ l, i ≠ .other l) ∧ ∀ x t, i ≠ .mergetag x t := by
  intro i hi
  unfold encFront at hi
  simp only [List.mem_append, List.mem_cons, List.not_mem_nil, or_false, List.mem_map,
    Option.mem_toList, Option.map_eq_some_iff] at hi
  rcases hi with ((rfl | ⟨p, hp, rfl⟩) | rfl | rfl) | ⟨e, he, rfl⟩ <;> simp

/-- Merge tags among items. -/
def mergesOf (is : List Item) : List Tag := is.filterMap fun
  | .mergetag _ t => some t
  | _ => none

theorem mergesOf_none (is : List Item) (h : ∀ i ∈ is, ∀ x t, i ≠ .mergetag x t) : mergesOf is = [] := by
  unfold mergesOf
  rw [List.filterMap_eq_nil_iff]
  intro i hi
  cases i with
  | mergetag x t => exact absurd rfl (h _ hi x t)
  | _ => rfl

theorem mergesOf_map (ts : List Tag) :
    mergesOf (ts.map fun t => .mergetag (hex (digest t.object)) t) = ts := by
  induction ts with
  | nil => rfl
  | cons t ts ih => simp only [mergesOf, List.map_cons, List.filterMap_cons] at ih ⊢; rw [ih]

/-- The text of an item list read back as the encoder's items. -/
theorem order_of_body {N : Nat} (hN : 4096 ≤ N) (is : List Item) (h : ItemsOk N is) (msg : Bytes)
    (a k : PersonInfo) (ha : (commitOf is msg).author = some a) (hk : (commitOf is msg).committer = some k)
    (he : itemsBody is msg = commitBody (commitOf is msg) a k) : is = encItems (commitOf is msg) a k := by
  have hmsg : (commitOf is msg).message = msg := rfl
  have hmt : (commitOf is msg).mergetag = mergesOf is := by
    have : (commitOf is msg).mergetag = (is.foldl Item.apply noCommit).mergetag := rfl
    rw [this, foldl_mergetag]
    rfl
  have htree : IsGitLink (commitOf is msg).tree := by
    rcases foldl_tree is N h noCommit (.inr rfl) with ht | ht
    · exact ht
    · exfalso
      have hx : (commitOf is msg).tree = .nil := ht
      have he' := he
      unfold itemsBody commitBody at he'
      rw [hx] at he'
      simp only [List.append_assoc, unlines_cons, unlines_nil, List.nil_append] at he'
      obtain ⟨sha, ks, _, hr⟩ := tree_first (x := hex (digest .nil)) hN h (by decide) (by simpa using he')
      have := hexOf_length hr.1
      have := hr.2
      simp [digest, hex] at *
      omega
  have hok := encItems_ok h msg a k ha hk htree
  generalize hc : commitOf is msg = c at *
  rw [← encItems_body, hmsg] at he
  have hsplit : encItems c a k = (encFront c a k ++ c.mergetag.map fun t => .mergetag (hex (digest t.object)) t)
      ++ ((c.signature.map Item.sig).toList ++ c.other.map Item.other) := by
    simp [encItems, encFront]
  have hfront : ∀ ts : List Tag, (∀ t ∈ ts, t ∈ c.mergetag) →
      ItemsOk N (encFront c a k ++ ts.map fun t => .mergetag (hex (digest t.object)) t) := by
    intro ts hts
    refine itemsOk_noOther (fun i hi => hok i ?_) ?_
    · rw [hsplit, List.mem_append, List.mem_append]
      rcases List.mem_append.1 hi with hi | hi
      · exact .inl (.inl hi)
      · obtain ⟨t, ht, rfl⟩ := List.mem_map.1 hi
        exact .inl (.inr (List.mem_map.2 ⟨t, hts t ht, rfl⟩))
    · intro i hi
      rcases List.mem_append.1 hi with hi | hi
      · exact (encFront_kinds c a k i hi).1
      · obtain ⟨t, ht, rfl⟩ := List.mem_map.1 hi
        simp
  by_cases hbad : ∃ l, c.mergetag ≠ [] ∧ c.signature = none ∧ c.other.head? = some l ∧ l.head? = some SP
  · exfalso
    obtain ⟨l, hne, hsig, hhead, hsp⟩ := hbad
    obtain ⟨ms, t, hms⟩ : ∃ ms t, c.mergetag = ms ++ [t] :=
      ⟨_, _, (List.dropLast_concat_getLast hne).symm⟩
    unfold itemsBody at he
    have hR : itemsText (encItems c a k) ++ LF :: msg =
        itemsText (encFront c a k ++ ms.map fun t => .mergetag (hex (digest t.object)) t) ++
          ((Item.mergetag (hex (digest t.object)) t).text ++ (itemsText (c.other.map Item.other) ++ LF :: msg)) := by
      rw [hsplit, hms, hsig]
      simp [itemsText]
    rw [hR] at he
    obtain ⟨ks, hks, hR'⟩ := items_peel hN is _ h (hfront ms (by intro t ht; rw [hms]; simp [ht])) msg _
      (by rw [item_text]; simp [Item.first]; decide) he
    cases ks with
    | nil =>
      refine item_no_blank hN (i := .mergetag (hex (digest t.object)) t) (hok _ ?_) _ msg
        (by simpa [itemsText] using hR'.symm)
      rw [hsplit, hms]
      simp
    | cons j js =>
      have hj : ItemsOk N (j :: js) := itemsOk_right _ _ (hks ▸ h)
      have htok : (Item.mergetag (hex (digest t.object)) t).Ok N := by
        apply hok
        rw [hsplit, hms]
        simp
      have hfirst : Item.first j = Item.first (.mergetag (hex (digest t.object)) t) := by
        rw [itemsText_cons, item_text j, item_text (.mergetag _ _)] at hR'
        simp only [List.append_assoc, List.cons_append] at hR'
        exact (line_split (item_first_noLF hN hj.1) (item_first_noLF hN htok) hR').1
      have hkind := lineKind_first hj.1
      rw [hfirst, lineKind_first htok] at hkind
      cases j <;> first | (simp [itemKind] at hkind; done) | skip
      case mergetag y u =>
        have hy : y = hex (digest t.object) := by
          simp only [Item.first] at hfirst
          exact List.append_cancel_left hfirst
        have hmerge : ms ++ [t] = ms ++ u :: mergesOf js := by
          rw [← hms, hmt, hks]
          unfold mergesOf
          rw [List.filterMap_append]
          have h1 : mergesOf (encFront c a k ++ ms.map fun t => .mergetag (hex (digest t.object)) t) = ms := by
            unfold mergesOf
            rw [List.filterMap_append]
            have h1 := mergesOf_none _ fun i hi => (encFront_kinds c a k i hi).2
            have h2 := mergesOf_map ms
            unfold mergesOf at h1 h2
            rw [h1, h2]
            rfl
          unfold mergesOf at h1
          rw [h1]
          simp
        have hu : t = u := by
          have := List.append_cancel_left hmerge
          simp only [List.cons.injEq] at this
          exact this.1
        subst hy hu
        rw [itemsText_cons, List.append_assoc] at hR'
        have hR' := List.append_cancel_left hR'
        have hspR : (itemsText (c.other.map Item.other) ++ LF :: msg).head? = some SP := by
          cases ho : c.other with
          | nil => rw [ho] at hhead; simp at hhead
          | cons o os =>
            rw [ho] at hhead
            simp only [List.head?_cons, Option.some.injEq] at hhead
            subst hhead
            cases o with
            | nil => simp at hsp
            | cons b bs => simpa [itemsText, Item.text, unlines] using hsp
        rw [← hR'] at hspR
        exact items_head hj msg ⟨_, _, rfl⟩ hspR
  · refine (items_unique hN is (encItems c a k) h ?_ msg msg he).1
    rw [hsplit]
    refine itemsOk_append N _ _ (hfront _ fun t ht => ht) ?_ ?_
    · refine itemsOk_of_mem N _ (fun i hi => hok i (by rw [hsplit]; exact List.mem_append_right _ hi)) (.inr ?_)
      intro i hi
      simp only [List.mem_append, List.mem_map, Option.mem_toList, Option.map_eq_some_iff] at hi
      rcases hi with ⟨g, hg, rfl⟩ | ⟨l, hl, rfl⟩ <;> simp
    · intro x t l hlast hhead hsp
      refine hbad ⟨l, ?_, ?_, ?_, hsp⟩
      · intro hnil
        rw [hnil, List.map_nil, List.append_nil] at hlast
        exact (encFront_kinds c a k _ (List.mem_of_getLast? hlast)).2 x t rfl
      · cases hs : c.signature with
        | none => rfl
        | some g => rw [hs] at hhead; simp at hhead
      · cases hs : c.signature with
        | some g => rw [hs] at hhead; simp at hhead
        | none =>
          rw [hs] at hhead
          cases ho : c.other with
          | nil => rw [ho] at hhead; simp at hhead
          | cons o os => rw [ho] at hhead; simpa using hhead

theorem foldl_parent_items (l : List Bytes) (x : Commit) :
    (l.map (fun sha => Item.parent (hex sha) sha)).foldl Item.apply x =
      { x with parents := x.parents ++ l.map gitLink } := by
  induction l generalizing x with
  | nil => simp
  | cons p l ih => simp [Item.apply, ih]

theorem foldl_merge_items (l : List Tag) (x : Commit) :
    (l.map (fun t => Item.mergetag (hex (digest t.object)) t)).foldl Item.apply x =
      { x with mergetag := x.mergetag ++ l } := by
  induction l generalizing x with
  | nil => simp
  | cons p l ih => simp [Item.apply, ih]

theorem foldl_other_items (l : List Bytes) (x : Commit) :
    (l.map Item.other).foldl Item.apply x = { x with other := x.other ++ l } := by
  induction l generalizing x with
  | nil => simp
  | cons p l ih => simp [Item.apply, ih]

/-- What is described by items in the encoder's order. -/
theorem commitOf_order (msg tree : Bytes) (parents : List Bytes) (a k : PersonInfo) (enc : Option Bytes)
    (merges : List Tag) (sig : Option Bytes) (others : List Bytes) :
    commitOf ([.tree (hex tree) tree]
      ++ parents.map (fun sha => .parent (hex sha) sha)
      ++ [.author a, .committer k]
      ++ (enc.map Item.encoding).toList
      ++ merges.map (fun t => .mergetag (hex (digest t.object)) t)
      ++ (sig.map Item.sig).toList
      ++ others.map Item.other) msg =
    { tree := gitLink tree, parents := parents.map gitLink, message := msg, author := some a, committer := some k
      encoding := enc, signature := sig, mergetag := merges, other := others } := by
  unfold commitOf
  simp only [List.foldl_append, foldl_parent_items, foldl_merge_items, foldl_other_items, List.foldl_cons,
    List.foldl_nil, Item.apply, noCommit]
  cases enc <;> cases sig <;> simp [Item.apply]

theorem encItems_order (c : Commit) (a k : PersonInfo) : EncoderOrder (encItems c a k) :=
  ⟨digest c.tree, c.parents.map digest, a, k, c.encoding, c.mergetag, c.signature, c.other, by
    simp [encItems]⟩

theorem personOrPanic_some {p : Option PersonInfo} {x : Bytes} (h : personOrPanic p = .ok x) : ∃ q, p = some q := by
  cases p with
  | none => simp [personOrPanic] at h
  | some q => exact ⟨q, rfl⟩

/-! ## C61 Exactly which objects are reproduced byte for byte -/

/-- A well-formed commit is read, and what is written for the node read is the
input exactly if its headers are in the encoder's order, none of the single ones
twice and no reference in upper-case digits. -/
theorem commit_bytes_exact (N : Nat) (hN : 4096 ≤ N) (is : List Item) (h : ItemsOk N is) (msg : Bytes)
    (out : Bytes) (hout : Framed b!"commit" (itemsBody is msg) out) (hlen : (itemsBody is msg).length < 2 ^ 63) :
    ∃ c, parseObject (σ := Stream) ⟨out, .eof, N⟩ = .ok (.commit c) ∧
      (encObj (.commit c) = .ok out ↔ EncoderOrder is) := by
  refine ⟨commitOf is msg, ?_, ?_, ?_⟩
  · rw [parse_commit_framed hout _ _ hlen, commitRun_itemsBody is msg N hN h]
    rfl
  · intro he
    obtain ⟨_, _, _, _, _, _, _, h3, h4, _, _⟩ := encCommit_inv _ _ he
    obtain ⟨a, ha⟩ := personOrPanic_some h3
    obtain ⟨k, hk⟩ := personOrPanic_some h4
    obtain ⟨_, out', h1, _, h2⟩ := commit_reencode N hN is h msg a k ha hk out hout hlen
    rw [he] at h1
    have hbody := h2.1 (Res.ok.inj h1).symm
    rw [order_of_body hN is h msg a k ha hk hbody]
    exact encItems_order _ _ _
  · rintro ⟨tree, parents, a, k, enc, merges, sig, others, rfl⟩
    have hc := commitOf_order msg tree parents a k enc merges sig others
    obtain ⟨_, out', h1, _, h2⟩ := commit_reencode N hN _ h msg a k (by rw [hc]) (by rw [hc]) out hout hlen
    rw [h1]
    congr 1
    rw [h2, hc, ← encItems_body]
    congr 1
    simp [encItems, digest_gitLink, Function.comp_def]

/-- Two well-formed header sequences with the same text are the same: what a
commit says can be read off its bytes in one way only. -/
theorem commit_reading_unique (N : Nat) (hN : 4096 ≤ N) (is js : List Item) (hi : ItemsOk N is)
    (hj : ItemsOk N js) (m m' : Bytes) (h : itemsBody is m = itemsBody js m') : is = js ∧ m = m' :=
  items_unique hN is js hi hj m m' h

/-- Items in the order the encoder writes, and in another. -/
example : EncoderOrder (encItems sampleCommit samplePerson samplePerson) ∧ ¬ EncoderOrder sampleItems ∧
    ItemsOk 4096 sampleItems := by
  refine ⟨encItems_order _ _ _, ?_, sampleItems_ok 4096 (by omega)⟩
  rintro ⟨_, _, _, _, _, _, _, _, h⟩
  simp [sampleItems] at h

/-- A single header given twice, in words: two `author` lines in a row. -/
example (t : Bytes) (p q : PersonInfo) :
    ¬ EncoderOrder [.tree (hex t) t, .author p, .author p, .committer q] := by
  rintro ⟨_, ps, _, _, e, ms, g, os, h⟩
  cases ps <;> simp at h

/-! ### Tags -/

theorem foldl_tag_typ (is : List TagItem) (t : Tag) :
    (is.foldl TagItem.apply t).typ = t.typ ∨ .typ (is.foldl TagItem.apply t).typ ∈ is := by
  induction is generalizing t with
  | nil => exact .inl rfl
  | cons i is ih =>
    rcases ih (TagItem.apply t i) with h | h
    · cases i with
      | typ x => exact .inr (by simp only [List.foldl_cons]; rw [h]; simp [TagItem.apply])
      | _ => exact .inl h
    · exact .inr (List.mem_cons_of_mem _ h)

theorem foldl_tag_tag (is : List TagItem) (t : Tag) :
    (is.foldl TagItem.apply t).tag = t.tag ∨ .tag (is.foldl TagItem.apply t).tag ∈ is := by
  induction is generalizing t with
  | nil => exact .inl rfl
  | cons i is ih =>
    rcases ih (TagItem.apply t i) with h | h
    · cases i with
      | tag x => exact .inr (by simp only [List.foldl_cons]; rw [h]; simp [TagItem.apply])
      | _ => exact .inl h
    · exact .inr (List.mem_cons_of_mem _ h)

theorem foldl_tag_tagger (is : List TagItem) (t : Tag) :
    (is.foldl TagItem.apply t).tagger = t.tagger ∨ .tagger (is.foldl TagItem.apply t).tagger ∈ is := by
  induction is generalizing t with
  | nil => exact .inl rfl
  | cons i is ih =>
    rcases ih (TagItem.apply t i) with h | h
    · cases i with
      | tagger x => exact .inr (by simp only [List.foldl_cons]; rw [h]; simp [TagItem.apply])
      | _ => exact .inl h
    · exact .inr (List.mem_cons_of_mem _ h)

theorem foldl_tag_object {N : Nat} (is : List TagItem) (hok : ∀ i ∈ is, i.Ok N) (t : Tag) (ht : GitOrNil t.object) :
    GitOrNil (is.foldl TagItem.apply t).object := by
  induction is generalizing t with
  | nil => exact ht
  | cons i is ih =>
    refine ih (fun j hj => hok j (by simp [hj])) _ ?_
    cases i with
    | object x sha => exact .inl ⟨sha, (hok _ List.mem_cons_self).2, rfl⟩
    | _ => exact ht

/-- Lines before an optional blank line and message. -/
theorem lines_unique (ls ls' : List Bytes) (m m' : Option Bytes) (h1 : ∀ l ∈ ls, LF ∉ l ∧ l ≠ [])
    (h2 : ∀ l ∈ ls', LF ∉ l ∧ l ≠ [])
    (h : unlines ls ++ messageText m = unlines ls' ++ messageText m') : ls = ls' ∧ m = m' := by
  have hmt : ∀ (x r : Bytes) (m : Option Bytes), LF ∉ x → x ≠ [] → x ++ LF :: r ≠ messageText m := by
    intro x r m hx hne h
    cases x with
    | nil => exact hne rfl
    | cons b x =>
      cases m with
      | none => simp [messageText] at h
      | some m =>
        simp only [messageText, List.cons_append, List.cons.injEq] at h
        exact hx (by simp [h.1])
  induction ls generalizing ls' with
  | nil =>
    cases ls' with
    | nil =>
      refine ⟨rfl, ?_⟩
      cases m <;> cases m' <;> simp_all [messageText, unlines]
    | cons y ys =>
      rw [unlines_cons, unlines_nil, List.nil_append] at h
      exact absurd h.symm (hmt _ _ _ (h2 y (by simp)).1 (h2 y (by simp)).2)
  | cons x ls ih =>
    cases ls' with
    | nil =>
      rw [unlines_cons, unlines_nil, List.nil_append] at h
      exact absurd h (hmt _ _ _ (h1 x (by simp)).1 (h1 x (by simp)).2)
    | cons y ys =>
      rw [unlines_cons, unlines_cons] at h
      obtain ⟨rfl, h'⟩ := line_split (h1 x (by simp)).1 (h2 y (by simp)).1 h
      obtain ⟨rfl, h''⟩ := ih ys (fun l hl => h1 l (by simp [hl])) (fun l hl => h2 l (by simp [hl])) h'
      exact ⟨rfl, h''⟩

theorem tagItem_nonempty {N : Nat} {i : TagItem} (h : i.Ok N) : i.line ≠ [] := by
  cases i with
  | unknown l => exact h.2.1
  | _ => simp [TagItem.line]

theorem tagItem_object {N : Nat} {i : TagItem} (h : i.Ok N) {x : Bytes} (hl : i.line = b!"object " ++ x) :
    ∃ sha, i = .object x sha := by
  cases i with
  | object y sha => exact ⟨sha, by rw [List.append_cancel_left (show b!"object " ++ y = b!"object " ++ x from hl)]⟩
  | unknown l => exact absurd ⟨x, hl.symm⟩ (h.2.2 _ (by simp))
  | _ => simp [TagItem.line] at hl

theorem tagItem_typ {N : Nat} {i : TagItem} (h : i.Ok N) {x : Bytes} (hl : i.line = b!"type " ++ x) :
    i = .typ x := by
  cases i with
  | typ y => rw [List.append_cancel_left (show b!"type " ++ y = b!"type " ++ x from hl)]
  | unknown l => exact absurd ⟨x, hl.symm⟩ (h.2.2 _ (by simp))
  | _ => simp [TagItem.line] at hl

theorem tagItem_tag {N : Nat} {i : TagItem} (h : i.Ok N) {x : Bytes} (hl : i.line = b!"tag " ++ x) :
    i = .tag x := by
  cases i with
  | tag y => rw [List.append_cancel_left (show b!"tag " ++ y = b!"tag " ++ x from hl)]
  | unknown l => exact absurd ⟨x, hl.symm⟩ (h.2.2 _ (by simp))
  | _ => simp [TagItem.line] at hl

theorem tagItem_tagger {N : Nat} {i : TagItem} (h : i.Ok N) {x : Bytes} (hl : i.line = b!"tagger " ++ x) :
    ∃ p, i = .tagger p := by
  cases i with
  | tagger y => exact ⟨y, rfl⟩
  | unknown l => exact absurd ⟨x, hl.symm⟩ (h.2.2 _ (by simp))
  | _ => simp [TagItem.line] at hl

/-- Header lines and message of a tag, read. -/
theorem parse_tagItems (N : Nat) (hN : 4096 ≤ N) (is : List TagItem) (h : ∀ i ∈ is, i.Ok N) (msg : Option Bytes)
    (out : Bytes) (hout : Framed b!"tag" (tagItemsText is ++ messageText msg) out) :
    parseObject (σ := Stream) ⟨out, .eof, N⟩ = .ok (.tag (tagOf is (msg.getD []))) := by
  rw [parse_tag_framed hout, tagRun_items is _ _ _ N hN h, tag_zero]
  cases msg with
  | none =>
    simp only [messageText]
    rw [tagRun_nil _ _ (by omega)]
    have hm : ∀ (is : List TagItem) (t : Tag), (is.foldl TagItem.apply t).message = t.message := by
      intro is
      induction is with
      | nil => intro t; rfl
      | cons i is ih => intro t; rw [List.foldl_cons, ih]; cases i <;> rfl
    have := hm is noTag
    simp only [Res.bind_ok, tagOf, Option.getD_none]
    rw [← (show (is.foldl TagItem.apply noTag).message = [] from this)]
  | some m =>
    simp only [messageText]
    rw [tagRun_message _ _ N hN]
    rfl

/-- A well-formed tag, with or without a message, is read, and what is written for
the node read is the input exactly if its header lines are those that the encoder
writes, in its order, and the message is not empty. -/
theorem tag_bytes_exact (N : Nat) (hN : 4096 ≤ N) (is : List TagItem) (h : ∀ i ∈ is, i.Ok N) (msg : Option Bytes)
    (out : Bytes) (hout : Framed b!"tag" (tagItemsText is ++ messageText msg) out) :
    ∃ t, parseObject (σ := Stream) ⟨out, .eof, N⟩ = .ok (.tag t) ∧
      (encObj (.tag t) = .ok out ↔ TagEncoderOrder is ∧ msg ≠ some []) := by
  have hdec := parse_tagItems N hN is h msg out hout
  have hobj : GitOrNil (tagOf is (msg.getD [])).object := foldl_tag_object is h noTag (.inr rfl)
  have henc : ∀ t : Tag, GitOrNil t.object → encObj (.tag t) = .ok (withHeader b!"tag" (
      unlines [b!"object " ++ hex (digest t.object), b!"type " ++ t.typ, b!"tag " ++ t.tag,
        b!"tagger " ++ personText t.tagger] ++ messageText (if t.message = [] then none else some t.message))) := by
    intro t ht
    simp only [encObj, encTag, linkSha_gitOrNil ht, Res.bind_ok]
    by_cases hm : t.message = [] <;> simp [hm, unlines, hex_eq, personText_eq, messageText]
  refine ⟨_, hdec, ?_, ?_⟩
  · intro he
    rw [henc _ hobj, framed_eq hout] at he
    have he := withHeader_inj (Res.ok.inj he)
    unfold tagItemsText at he
    have hline : ∀ i ∈ is, LF ∉ i.line ∧ i.line ≠ [] := fun i hi =>
      ⟨(tagItem_line hN (h i hi)).noLF, tagItem_nonempty (h i hi)⟩
    generalize ht : tagOf is (msg.getD []) = t at *
    have h1 : LF ∉ b!"object " ++ hex (digest t.object) := by
      rcases hobj with hg | hg
      · exact (headerLine_ref N _ _ _ (by decide) (ref_hex _ (digest_length hg)) (by simp; omega)).noLF
      · rw [hg]; decide
    have h2 : LF ∉ b!"type " ++ t.typ := by
      have : t.typ = (is.foldl TagItem.apply noTag).typ := by rw [← ht]; rfl
      rcases foldl_tag_typ is noTag with hh | hh
      · rw [this, hh]; decide
      · rw [← this] at hh; exact (hline _ hh).1
    have h3 : LF ∉ b!"tag " ++ t.tag := by
      have : t.tag = (is.foldl TagItem.apply noTag).tag := by rw [← ht]; rfl
      rcases foldl_tag_tag is noTag with hh | hh
      · rw [this, hh]; decide
      · rw [← this] at hh; exact (hline _ hh).1
    have h4 : LF ∉ b!"tagger " ++ personText t.tagger := by
      have : t.tagger = (is.foldl TagItem.apply noTag).tagger := by rw [← ht]; rfl
      rcases foldl_tag_tagger is noTag with hh | hh
      · rw [this, hh]; decide
      · rw [← this] at hh; exact (hline _ hh).1
    obtain ⟨hl, hm⟩ := lines_unique _ _ _ _ (by
        intro l hl
        simp only [List.mem_cons, List.not_mem_nil, or_false] at hl
        rcases hl with rfl | rfl | rfl | rfl
        · exact ⟨h1, by simp⟩
        · exact ⟨h2, by simp⟩
        · exact ⟨h3, by simp⟩
        · exact ⟨h4, by simp⟩) (by
        intro l hl
        obtain ⟨i, hi, rfl⟩ := List.mem_map.1 hl
        exact hline i hi) he
    refine ⟨?_, ?_⟩
    · obtain ⟨i1, is, rfl⟩ : ∃ i js, is = i :: js := by cases is <;> simp at hl ⊢
      obtain ⟨i2, is, rfl⟩ : ∃ i js, is = i :: js := by cases is <;> simp at hl ⊢
      obtain ⟨i3, is, rfl⟩ : ∃ i js, is = i :: js := by cases is <;> simp at hl ⊢
      obtain ⟨i4, is, rfl⟩ : ∃ i js, is = i :: js := by cases is <;> simp at hl ⊢
      obtain rfl : is = [] := by cases is <;> simp at hl ⊢
      simp only [List.map_cons, List.map_nil, List.cons.injEq, and_true] at hl
      obtain ⟨sha, rfl⟩ := tagItem_object (h i1 (by simp)) hl.1.symm
      obtain rfl := tagItem_typ (h i2 (by simp)) hl.2.1.symm
      obtain rfl := tagItem_tag (h i3 (by simp)) hl.2.2.1.symm
      obtain ⟨p, rfl⟩ := tagItem_tagger (h i4 (by simp)) hl.2.2.2.symm
      have hd : digest t.object = sha := by rw [← ht]; rfl
      rw [hd]
      exact ⟨sha, t.typ, t.tag, p, rfl⟩
    · rintro rfl
      split at hm <;> rename_i hh
      · simp at hm
      · exact hh (Option.some.inj hm)
  · rintro ⟨⟨sha, typ, tag, p, rfl⟩, hm⟩
    rw [henc _ hobj, framed_eq hout]
    congr 2
    cases msg with
    | none => rfl
    | some m =>
      have : m ≠ [] := by rintro rfl; exact hm rfl
      have hmsg : ∀ t : Tag, t.message ≠ [] →
          messageText (if t.message = [] then none else some t.message) = messageText (some t.message) :=
        fun t ht => by rw [if_neg ht]
      rw [hmsg _ this]
      rfl

example : TagEncoderOrder [.object (hex (List.replicate 20 7)) (List.replicate 20 7), .typ b!"commit", .tag b!"v1",
    .tagger samplePerson] ∧
    ¬ TagEncoderOrder [.object (hex (List.replicate 20 7)) (List.replicate 20 7), .typ b!"commit", .tag b!"v1"] := by
  refine ⟨⟨_, _, _, _, rfl⟩, ?_⟩
  rintro ⟨_, _, _, _, h⟩
  simp at h

end Verif.Props
