import Verif.Spec.Multi
import Verif.Props.Survive
import Verif.Props.Order

/-!
# C100 Headers of several lines
-/

namespace Verif.Props

open Verif Verif.Spec

/-! ## Fields of lines -/

theorem gitFields_cons_cont (l n : Bytes) (ls : List Bytes) (h : Cont n) :
    ∃ f fs, gitFields (n :: ls) = f :: fs ∧ f.head? = some n ∧ gitFields (l :: n :: ls) = (l :: f) :: fs := by
  obtain ⟨f, fs, he, hf⟩ : ∃ f fs, gitFields (n :: ls) = f :: fs ∧ f.head? = some n := by
    unfold gitFields
    split
    · exact ⟨_, _, rfl, rfl⟩
    · split
      · exact ⟨_, _, rfl, rfl⟩
      · exact ⟨_, _, rfl, rfl⟩
  refine ⟨f, fs, he, hf, ?_⟩
  rw [gitFields, he]
  simp only
  rw [if_pos ⟨n, rfl, h⟩]

theorem gitFields_nil_iff (ls : List Bytes) : gitFields ls = [] ↔ ls = [] := by
  constructor
  · intro h
    cases ls with
    | nil => rfl
    | cons l ls =>
      unfold gitFields at h
      split at h
      · simp at h
      · split at h <;> simp at h
  · rintro rfl
    rfl

theorem gitFields_cons_new (l : Bytes) (ls : List Bytes) (h : ∀ n, ls.head? = some n → ¬ Cont n) :
    gitFields (l :: ls) = [l] :: gitFields ls := by
  rw [gitFields]
  split
  · rename_i he
    rw [he]
  · rename_i f fs he
    rw [if_neg (fun ⟨n, hn, hc⟩ => h n hn hc), he]

theorem gitFields_field (l : Bytes) (cs ls : List Bytes) (hc : ∀ c ∈ cs, Cont c)
    (h : ∀ n, ls.head? = some n → ¬ Cont n) :
    gitFields (l :: (cs ++ ls)) = (l :: cs) :: gitFields ls := by
  induction cs generalizing l with
  | nil => exact gitFields_cons_new l ls h
  | cons c cs ih =>
    obtain ⟨f, fs, h1, h2, h3⟩ := gitFields_cons_cont l c (cs ++ ls) (hc c (by simp))
    rw [List.cons_append, h3]
    rw [ih c (fun x hx => hc x (by simp [hx]))] at h1
    injection h1 with h1 h4
    rw [← h1, ← h4]

theorem gitFields_flatten (ls : List Bytes) : (gitFields ls).flatten = ls := by
  induction ls with
  | nil => rfl
  | cons l ls ih =>
    rw [gitFields]
    split
    · rename_i he
      rw [(gitFields_nil_iff ls).1 he]
      rfl
    · rename_i f fs he
      rw [he] at ih
      split
      · rw [List.flatten_cons, List.cons_append, ← List.flatten_cons, ih]
      · rw [List.flatten_cons, ih]
        rfl

theorem gitFields_inj {xs ys : List Bytes} (h : gitFields xs = gitFields ys) : xs = ys := by
  rw [← gitFields_flatten xs, h, gitFields_flatten]

/-! ## Pieces -/

/-- A known header with all its lines, or a line of another one. -/
inductive Piece where
  | known (l : Bytes) (cs : List Bytes)
  | unk (l : Bytes)

def Piece.lines : Piece → List Bytes
  | .known l cs => l :: cs
  | .unk l => [l]

def KnownLine (l : Bytes) : Prop := ∃ p ∈ knownHeaders, p <+: l

theorem known_not_cont {l : Bytes} (h : KnownLine l) : ¬ Cont l := by
  obtain ⟨p, hp, t, rfl⟩ := h
  simp only [knownHeaders, List.mem_cons, List.not_mem_nil, or_false] at hp
  unfold Cont
  rcases hp with rfl | rfl | rfl | rfl | rfl | rfl | rfl <;> simp [SP]

def Piece.Ok : Piece → Prop
  | .known l cs => KnownLine l ∧ ∀ c ∈ cs, Cont c
  | .unk l => ¬ KnownLine l

theorem knownField_cons (l : Bytes) (cs : List Bytes) : knownField (l :: cs) = true ↔ KnownLine l := by
  unfold knownField KnownLine
  rw [List.any_eq_true]
  constructor
  · rintro ⟨x, _, hx⟩
    have hx := of_decide_eq_true hx
    have : x = l := by simpa using hx.1
    subst this
    exact hx.2
  · intro h
    exact ⟨l, by simp, decide_eq_true ⟨rfl, h⟩⟩

/-- The unknown lines that do not continue a known header. -/
def kept : Bool → List Piece → List Bytes
  | _, [] => []
  | _, .known _ _ :: ps => kept false ps
  | p, .unk l :: ps => if Cont l ∧ p = false then kept false ps else l :: kept true ps

theorem kept_false_head (ps : List Piece) : ∀ n, (kept false ps).head? = some n → ¬ Cont n := by
  induction ps with
  | nil => simp [kept]
  | cons p ps ih =>
    cases p with
    | known l cs => exact ih
    | unk l =>
      intro n hn
      rw [kept] at hn
      split at hn
      · exact ih n hn
      · rename_i h
        have : l = n := by simpa using hn
        subst this
        exact fun hc => h ⟨hc, rfl⟩

def unknownOf (ls : List Bytes) : List (List Bytes) := (gitFields ls).filter (!knownField ·)

theorem fields_pieces (ps : List Piece) (h : ∀ p ∈ ps, p.Ok) :
    (∀ l cs, KnownLine l → (∀ c ∈ cs, Cont c) →
      unknownOf (l :: (cs ++ ps.flatMap Piece.lines)) = gitFields (kept false ps)) ∧
    unknownOf (ps.flatMap Piece.lines) = gitFields (kept true ps) := by
  induction ps with
  | nil =>
    refine ⟨?_, rfl⟩
    intro l cs hl hcs
    unfold unknownOf
    rw [List.flatMap_nil, gitFields_field l cs [] hcs (by simp)]
    show List.filter _ [l :: cs] = _
    rw [List.filter_cons_of_neg (by simp [(knownField_cons l cs).2 hl])]
    rfl
  | cons p ps ih =>
    have hp := h p (by simp)
    obtain ⟨ihK, ihU⟩ := ih (fun q hq => h q (by simp [hq]))
    have key : unknownOf ((p :: ps).flatMap Piece.lines) = gitFields (kept true (p :: ps)) := by
      cases p with
      | known l cs => exact ihK l cs hp.1 hp.2
      | unk l =>
        have hk : kept true (.unk l :: ps) = l :: kept true ps := by
          rw [kept, if_neg (by simp)]
        rw [hk, List.flatMap_cons]
        show unknownOf (l :: ps.flatMap Piece.lines) = _
        have hfl : ∀ f, (!knownField (l :: f)) = true := by
          intro f
          cases hb : knownField (l :: f) with
          | false => rfl
          | true => exact absurd ((knownField_cons l f).1 hb) hp
        by_cases hn : ∃ n, (ps.flatMap Piece.lines).head? = some n ∧ Cont n
        · obtain ⟨n, hn, hc⟩ := hn
          match ps, hn with
          | .known m cs :: ps', hn =>
            have : m = n := by simpa [Piece.lines] using hn
            subst this
            exact absurd hc (known_not_cont (h (.known m cs) (by simp)).1)
          | .unk m :: ps', hn =>
            have : m = n := by simpa [Piece.lines] using hn
            subst this
            have hm : ¬ KnownLine m := h (.unk m) (by simp)
            have hk2 : kept true (.unk m :: ps') = m :: kept true ps' := by
              rw [kept, if_neg (by simp)]
            rw [hk2] at ihU ⊢
            rw [List.flatMap_cons] at ihU ⊢
            replace ihU : unknownOf (m :: ps'.flatMap Piece.lines) = gitFields (m :: kept true ps') := ihU
            show unknownOf (l :: m :: ps'.flatMap Piece.lines) = _
            obtain ⟨f, fs, h1, h2, h3⟩ := gitFields_cons_cont l m (ps'.flatMap Piece.lines) hc
            obtain ⟨g, gs, k1, k2, k3⟩ := gitFields_cons_cont l m (kept true ps') hc
            have hf : (!knownField f) = true := by
              cases f with
              | nil => simp at h2
              | cons x f =>
                have : x = m := by simpa using h2
                subst this
                cases hb : knownField (x :: f) with
                | false => rfl
                | true => exact absurd ((knownField_cons x f).1 hb) hm
            unfold unknownOf at ihU ⊢
            rw [h1, List.filter_cons_of_pos (p := fun x => !knownField x) hf, k1] at ihU
            injection ihU with e1 e2
            rw [h3, k3, List.filter_cons_of_pos (p := fun x => !knownField x) (hfl f), e1, e2]
        · have hnew : ∀ n, (ps.flatMap Piece.lines).head? = some n → ¬ Cont n := fun n h1 h2 => hn ⟨n, h1, h2⟩
          unfold unknownOf at ihU ⊢
          rw [gitFields_cons_new _ _ hnew, List.filter_cons_of_pos (p := fun x => !knownField x) (hfl []), ihU]
          rw [gitFields_cons_new]
          intro n hn2
          match ps, hn2 with
          | .known m cs :: ps', hn2 => exact kept_false_head ps' n hn2
          | .unk m :: ps', hn2 =>
            rw [kept, if_neg (by simp)] at hn2
            exact hnew n (by simpa [Piece.lines] using hn2)
    refine ⟨?_, key⟩
    intro l cs hl hcs
    have hnew : ∀ L, (∀ n, L.head? = some n → ¬ Cont n) → unknownOf (l :: (cs ++ L)) = unknownOf L := by
      intro L hL
      unfold unknownOf
      rw [gitFields_field l cs L hcs hL, List.filter_cons_of_neg (by simp [(knownField_cons l cs).2 hl])]
    cases p with
    | known m ds =>
      rw [hnew _ (by intro n hn; have : m = n := by simpa [Piece.lines] using hn
                     subst this; exact known_not_cont hp.1)]
      exact key
    | unk m =>
      by_cases hc : Cont m
      · rw [kept, if_pos ⟨hc, rfl⟩, ← ihK l (cs ++ [m]) hl (by
          intro c hcm
          rcases List.mem_append.1 hcm with hcm | hcm
          · exact hcs c hcm
          · rw [List.mem_singleton.1 hcm]; exact hc)]
        simp [Piece.lines]
      · rw [hnew _ (by intro n hn; have : m = n := by simpa [Piece.lines] using hn
                       subst this; exact hc), key, kept, kept, if_neg (by simp), if_neg (by simp [hc])]

/-! ## Items -/

/-- The lines of an item. -/
def itemPiece : Item → Piece
  | .tree h _ => .known (b!"tree " ++ h) []
  | .parent h _ => .known (b!"parent " ++ h) []
  | .author p => .known (b!"author " ++ personText p) []
  | .committer p => .known (b!"committer " ++ personText p) []
  | .encoding e => .known (b!"encoding " ++ e) []
  | .mergetag h t => .known (b!"mergetag object " ++ h)
      ([b!" type " ++ t.typ, b!" tag " ++ t.tag, b!" tagger " ++ personText t.tagger, b!" "] ++ linesOf t.message)
  | .sig g => .known sigBegin (linesOf g ++ [sigEnd])
  | .other l => .unk l

/-- The item is made of these lines. -/
structure Fine (i : Item) : Prop where
  ok : (itemPiece i).Ok
  clean : ∀ l ∈ (itemPiece i).lines, l ≠ [] ∧ LF ∉ l
  text : i.text = unlines (itemPiece i).lines

theorem fine_line {i : Item} {w x : Bytes} (hp : itemPiece i = .known (w ++ x) []) (hw : w ∈ knownHeaders)
    (hne : w ≠ []) (hLF : LF ∉ w ++ x) (ht : i.text = unlines [w ++ x]) : Fine i := by
  refine ⟨?_, ?_, ?_⟩
  · rw [hp]
    exact ⟨⟨w, hw, List.prefix_append _ _⟩, by simp⟩
  · rw [hp]
    intro l hl
    have : l = w ++ x := by simpa [Piece.lines] using hl
    subst this
    exact ⟨by simp [hne], hLF⟩
  · rw [hp, ht]
    rfl

theorem cont_ne {l : Bytes} (h : Cont l) : l ≠ [] := by
  rintro rfl
  simp [Cont] at h

theorem fine_of_ok {N : Nat} (hN : 4096 ≤ N) {i : Item} (h : i.Ok N)
    (hsig : ∀ g, i = .sig g → ∃ ls, g = unlines ls ∧ ∀ l ∈ ls, Cont l ∧ LF ∉ l) : Fine i := by
  cases i with
  | tree x sha =>
    exact fine_line rfl (by decide) (by decide)
      (headerLine_ref N b!"tree " x sha (by decide) h (by simp; omega)).noLF rfl
  | parent x sha =>
    exact fine_line rfl (by decide) (by decide)
      (headerLine_ref N b!"parent " x sha (by decide) h (by simp; omega)).noLF rfl
  | author p => exact fine_line rfl (by decide) (by decide) h.2.noLF rfl
  | committer p => exact fine_line rfl (by decide) (by decide) h.2.noLF rfl
  | encoding e => exact fine_line rfl (by decide) (by decide) (HeaderLine.noLF h) rfl
  | mergetag x t =>
    obtain ⟨hr, ht⟩ := h
    obtain ⟨ls, hls, hl⟩ := ht.message
    have hlo : linesOf t.message = ls := by rw [hls]; exact linesOf_unlines ls fun l hx => (hl l hx).2.noLF
    refine ⟨⟨⟨b!"mergetag object ", by decide, List.prefix_append _ _⟩, ?_⟩, ?_, ?_⟩
    · rw [hlo]
      intro c hc
      rcases List.mem_append.1 hc with hc | hc
      · simp only [List.mem_cons, List.not_mem_nil, or_false] at hc
        rcases hc with rfl | rfl | rfl | rfl <;> simp [Cont, SP]
      · exact (hl c hc).1
    · intro l hl2
      simp only [itemPiece, Piece.lines, hlo, List.mem_cons, List.mem_append, List.not_mem_nil, or_false] at hl2
      rcases hl2 with rfl | (rfl | rfl | rfl | rfl) | hl2
      · exact ⟨by simp, (headerLine_ref N b!"mergetag object " x _ (by decide) hr (by simp; omega)).noLF⟩
      · exact ⟨by simp, ht.typ.noLF⟩
      · exact ⟨by simp, ht.tag.noLF⟩
      · exact ⟨by simp, ht.taggerLine.noLF⟩
      · exact ⟨by simp, by decide⟩
      · exact ⟨cont_ne (hl l hl2).1, (hl l hl2).2.noLF⟩
    · show mergeTagBlock x t = _
      simp only [itemPiece, Piece.lines, hlo]
      rw [mergeTagBlock, hls]
      simp [unlines]
  | sig g =>
    obtain ⟨ls, rfl, hl⟩ := hsig g rfl
    have hlo : linesOf (unlines ls) = ls := linesOf_unlines ls fun l hx => (hl l hx).2
    refine ⟨⟨⟨b!"gpgsig ", by decide, by decide⟩, ?_⟩, ?_, ?_⟩
    · rw [hlo]
      intro c hc
      rcases List.mem_append.1 hc with hc | hc
      · exact (hl c hc).1
      · rw [List.mem_singleton.1 hc]
        decide
    · intro l hl2
      simp only [itemPiece, Piece.lines, hlo, List.mem_cons, List.mem_append, List.not_mem_nil, or_false] at hl2
      rcases hl2 with rfl | hl2 | rfl
      · exact ⟨by decide, by decide⟩
      · exact ⟨cont_ne (hl l hl2).1, (hl l hl2).2⟩
      · exact ⟨by decide, by decide⟩
    · show unlines [sigBegin] ++ unlines ls ++ unlines [sigEnd] = _
      simp only [itemPiece, Piece.lines, hlo]
      simp [unlines]
  | other l =>
    refine ⟨fun ⟨p, hp, hpl⟩ => h.unknown p hp hpl, ?_, rfl⟩
    intro x hx
    have : x = l := by simpa [itemPiece, Piece.lines] using hx
    subst this
    exact ⟨h.nonempty, h.line.noLF⟩

theorem textLines_cons (l r : Bytes) (h : LF ∉ l) : textLines (l ++ LF :: r) = l :: textLines r := by
  induction l with
  | nil => simp [textLines]
  | cons b l ih =>
    simp only [List.mem_cons, not_or] at h
    rw [List.cons_append, textLines, if_neg (Ne.symm h.1), ih h.2]

theorem headLines_unlines (ls : List Bytes) (msg : Bytes) (h : ∀ l ∈ ls, l ≠ [] ∧ LF ∉ l) :
    headLines (unlines ls ++ LF :: msg) = ls := by
  unfold headLines
  induction ls with
  | nil =>
    show List.takeWhile _ (textLines (LF :: msg)) = _
    rw [textLines, if_pos rfl, List.takeWhile_cons_of_neg (by simp)]
  | cons l ls ih =>
    have e : unlines (l :: ls) ++ LF :: msg = l ++ LF :: (unlines ls ++ LF :: msg) := by simp [unlines]
    rw [e, textLines_cons _ _ (h l (by simp)).2, List.takeWhile_cons_of_pos (by simpa using (h l (by simp)).1),
      ih fun x hx => h x (by simp [hx])]

theorem items_lines (is : List Item) (h : ∀ i ∈ is, Fine i) :
    itemsText is = unlines ((is.map itemPiece).flatMap Piece.lines) := by
  induction is with
  | nil => rfl
  | cons i is ih =>
    rw [List.map_cons, List.flatMap_cons, unlines_app, ← ih fun j hj => h j (by simp [hj]), ← (h i (by simp)).text]
    rfl

/-- The unknown headers of a commit with the given items. -/
theorem unknown_items (is : List Item) (msg : Bytes) (h : ∀ i ∈ is, Fine i) :
    unknownFields (itemsBody is msg) = gitFields (kept true (is.map itemPiece)) := by
  unfold unknownFields itemsBody
  rw [items_lines is h, headLines_unlines]
  · exact (fields_pieces _ (by
      intro p hp
      obtain ⟨i, hi, rfl⟩ := List.mem_map.1 hp
      exact (h i hi).ok)).2
  · intro l hl
    obtain ⟨p, hp, hl⟩ := List.mem_flatMap.1 hl
    obtain ⟨i, hi, rfl⟩ := List.mem_map.1 hp
    exact (h i hi).clean l hl

theorem kept_known (i : Item) (is : List Item) (b : Bool) (h : ∀ l, i ≠ .other l) :
    kept b ((i :: is).map itemPiece) = kept false (is.map itemPiece) := by
  cases i with
  | other l => exact absurd rfl (h l)
  | _ => rfl

theorem kept_knowns (ks : List Item) (ls : List Bytes) (b : Bool) (hne : ks ≠ []) (h : ∀ i ∈ ks, ∀ l, i ≠ .other l) :
    kept b ((ks ++ ls.map Item.other).map itemPiece) = ls.dropWhile (decide <| Cont ·) := by
  induction ks generalizing b with
  | nil => exact absurd rfl hne
  | cons k ks ih =>
    rw [List.cons_append, kept_known _ _ _ (h k (by simp))]
    cases ks with
    | cons k' ks' => exact ih false (by simp) fun i hi => h i (by simp [hi])
    | nil =>
      rw [List.nil_append]
      have ht : ∀ xs : List Bytes, kept true ((xs.map Item.other).map itemPiece) = xs := by
        intro xs
        induction xs with
        | nil => rfl
        | cons x xs ih =>
          show kept true (.unk x :: (xs.map Item.other).map itemPiece) = _
          rw [kept, if_neg (by simp), ih]
      clear ih
      induction ls with
      | nil => rfl
      | cons l ls ih =>
        show kept false (.unk l :: (ls.map Item.other).map itemPiece) = _
        rw [kept]
        by_cases hc : Cont l
        · rw [if_pos ⟨hc, rfl⟩, List.dropWhile_cons_of_pos (by simpa using hc), ih]
        · rw [if_neg (by simp [hc]), List.dropWhile_cons_of_neg (by simpa using hc), ht]

theorem encItems_split (c : Commit) (a k : PersonInfo) :
    ∃ ks, encItems c a k = .tree (hex (digest c.tree)) (digest c.tree) :: (ks ++ c.other.map Item.other) ∧
      (∀ i ∈ ks, ∀ l, i ≠ .other l) ∧ (∀ g, Item.sig g ∈ ks → c.signature = some g) ∧
      ∀ tr, encItems { c with tree := tr } a k = .tree (hex (digest tr)) (digest tr) :: (ks ++ c.other.map Item.other) := by
  refine ⟨c.parents.map (fun p => .parent (hex (digest p)) (digest p)) ++ [.author a, .committer k]
    ++ (c.encoding.map Item.encoding).toList ++ c.mergetag.map (fun t => .mergetag (hex (digest t.object)) t)
    ++ (c.signature.map Item.sig).toList, ?_, ?_, ?_, ?_⟩
  · simp [encItems]
  · intro i hi l
    simp only [List.mem_append, List.mem_cons, List.not_mem_nil, or_false, List.mem_map,
      Option.mem_toList, Option.map_eq_some_iff] at hi
    rcases hi with (((⟨p, hp, rfl⟩ | rfl | rfl) | ⟨e, he, rfl⟩) | ⟨t, ht, rfl⟩) | ⟨g, hg, rfl⟩ <;> simp
  · intro g hg
    simpa [Option.map_eq_some_iff] using hg
  · intro tr
    simp [encItems]

theorem foldl_other_lines (is : List Item) (msg : Bytes) : (commitOf is msg).other = otherLines is := by
  show (is.foldl Item.apply noCommit).other = _
  rw [foldl_other]
  rfl

theorem enc_fine {N : Nat} (hN : 4096 ≤ N) {is : List Item} (h : ItemsOk N is) (hi : Indented is) (msg : Bytes)
    (a k : PersonInfo) (ha : (commitOf is msg).author = some a) (hk : (commitOf is msg).committer = some k) :
    ∀ i ∈ encItems (commitOf is msg) a k, Fine i := by
  obtain ⟨ks, he, hks, hsig, htr⟩ := encItems_split (commitOf is msg) a k
  have hsha : (List.replicate 20 (0 : UInt8)).length = 20 := by simp
  have h' : ItemsOk N (is ++ [.tree (hex (List.replicate 20 0)) (List.replicate 20 0)]) :=
    itemsOk_append N _ _ h ⟨ref_hex _ hsha, by simp, trivial⟩ (by simp)
  have hc : commitOf (is ++ [.tree (hex (List.replicate 20 0)) (List.replicate 20 0)]) msg =
      { commitOf is msg with tree := gitLink (List.replicate 20 0) } := by
    simp [commitOf, List.foldl_append, Item.apply]
  have hall := encItems_ok h' msg a k (by rw [hc]; exact ha) (by rw [hc]; exact hk)
    (by rw [hc]; exact ⟨_, hsha, rfl⟩)
  rw [hc, htr] at hall
  rw [he]
  have hsig' : ∀ i ∈ ks ++ (commitOf is msg).other.map Item.other, ∀ g, i = .sig g →
      ∃ ls, g = unlines ls ∧ ∀ l ∈ ls, Cont l ∧ LF ∉ l := by
    rintro i hi2 g rfl
    rcases List.mem_append.1 hi2 with hi2 | hi2
    · have := hsig g hi2
      rcases foldl_sig_mem is noCommit g this with h | h
      · simp [noCommit] at h
      · exact hi g h
    · simp at hi2
  intro i hi2
  rcases List.mem_cons.1 hi2 with rfl | hi2
  · have htree : GitOrNil (commitOf is msg).tree := foldl_tree is N h _ (.inr rfl)
    exact fine_line rfl (by decide) (by decide)
      (hex_line hN b!"tree " _ (by decide) (by decide) (by decide) htree).noLF rfl
  · exact fine_of_ok hN (hall i (List.mem_cons_of_mem _ hi2)) (hsig' i hi2)

/-- The unknown headers that are written: all unknown lines one after the other,
apart from those in front that continue another header. -/
theorem multi_written {N : Nat} (hN : 4096 ≤ N) {is : List Item} (h : ItemsOk N is) (hi : Indented is) (msg : Bytes)
    (a k : PersonInfo) (ha : (commitOf is msg).author = some a) (hk : (commitOf is msg).committer = some k) :
    unknownFields (Spec.commitBody (commitOf is msg) a k) = gitFields ((otherLines is).dropWhile (decide <| Cont ·)) := by
  rw [← encItems_body, unknown_items _ _ (enc_fine hN h hi msg a k ha hk)]
  obtain ⟨ks, he, hks, _, _⟩ := encItems_split (commitOf is msg) a k
  rw [he, ← List.cons_append, kept_knowns _ _ _ (by simp), foldl_other_lines]
  intro i hi l
  rcases List.mem_cons.1 hi with rfl | hi
  · simp
  · exact hks i hi l

/-! ## Which headers keep their form -/

theorem otherLines_cons (i : Item) (is : List Item) (h : ∀ l, i ≠ .other l) : otherLines (i :: is) = otherLines is := by
  cases i with
  | other l => exact absurd rfl (h l)
  | _ => rfl

theorem otherLines_other (l : Bytes) (is : List Item) : otherLines (.other l :: is) = l :: otherLines is := rfl

theorem kept_other (b : Bool) (l : Bytes) (is : List Item) :
    kept b ((Item.other l :: is).map itemPiece) =
      if Cont l ∧ b = false then kept false (is.map itemPiece) else l :: kept true (is.map itemPiece) := rfl

theorem kept_length (is : List Item) : ∀ b, (kept b (is.map itemPiece)).length ≤ (otherLines is).length := by
  induction is with
  | nil => intro b; simp [kept]
  | cons i is ih =>
    intro b
    by_cases hi : ∃ l, i = .other l
    · obtain ⟨l, rfl⟩ := hi
      rw [kept_other, otherLines_other]
      split
      · exact Nat.le_succ_of_le (ih false)
      · exact Nat.succ_le_succ (ih true)
    · have hi : ∀ l, i ≠ .other l := fun l h => hi ⟨l, h⟩
      rw [kept_known i is b hi, otherLines_cons i is hi]
      exact ih false

/-- Behind the beginning of an unknown header every unknown line is kept unless it
continues a known one. -/
theorem kept_all (is : List Item) :
    (kept true (is.map itemPiece) = otherLines is ↔
      ¬ ∃ B k c D, is = B ++ k :: .other c :: D ∧ Cont c ∧ ∀ x, k ≠ .other x) ∧
    (kept false (is.map itemPiece) = otherLines is ↔
      ¬ ((∃ B k c D, is = B ++ k :: .other c :: D ∧ Cont c ∧ ∀ x, k ≠ .other x) ∨
        ∃ c D, is = .other c :: D ∧ Cont c)) := by
  induction is with
  | nil => simp [kept, otherLines]
  | cons i is ih =>
    obtain ⟨ih1, ih2⟩ := ih
    have hcons : (∃ B k c D, i :: is = B ++ k :: .other c :: D ∧ Cont c ∧ ∀ x, k ≠ .other x) ↔
        ((∃ B k c D, is = B ++ k :: .other c :: D ∧ Cont c ∧ ∀ x, k ≠ .other x) ∨
          ((∃ c D, is = .other c :: D ∧ Cont c) ∧ ∀ x, i ≠ .other x)) := by
      constructor
      · rintro ⟨B, k, c, D, he, hc, hk⟩
        cases B with
        | nil =>
          simp only [List.nil_append, List.cons.injEq] at he
          exact .inr ⟨⟨c, D, he.2, hc⟩, he.1 ▸ hk⟩
        | cons b B =>
          simp only [List.cons_append, List.cons.injEq] at he
          exact .inl ⟨B, k, c, D, he.2, hc, hk⟩
      · rintro (⟨B, k, c, D, he, hc, hk⟩ | ⟨⟨c, D, he, hc⟩, hi⟩)
        · exact ⟨i :: B, k, c, D, by rw [he]; rfl, hc, hk⟩
        · exact ⟨[], i, c, D, by rw [he]; rfl, hc, hi⟩
    rw [hcons]
    by_cases hi : ∃ l, i = .other l
    · obtain ⟨l, rfl⟩ := hi
      have hno : ¬ ∀ x, Item.other l ≠ .other x := fun h => h l rfl
      have hl : (∃ c D, Item.other l :: is = .other c :: D ∧ Cont c) ↔ Cont l := by
        constructor
        · rintro ⟨c, D, he, hc⟩
          simp only [List.cons.injEq, Item.other.injEq] at he
          rw [he.1]
          exact hc
        · intro hc
          exact ⟨l, is, rfl, hc⟩
      rw [hl, kept_other, kept_other, otherLines_other, if_neg (by simp)]
      constructor
      · rw [List.cons.injEq]
        simp only [true_and, ih1]
        simp [hno]
      · by_cases hc : Cont l
        · rw [if_pos ⟨hc, rfl⟩]
          constructor
          · intro he
            have h1 := kept_length is false
            have h2 := congrArg List.length he
            simp only [List.length_cons] at h2
            omega
          · intro hn
            exact absurd (.inr hc) hn
        · rw [if_neg (by simp [hc]), List.cons.injEq]
          simp only [true_and, ih1]
          simp [hno, hc]
    · have hi : ∀ l, i ≠ .other l := fun l h => hi ⟨l, h⟩
      rw [kept_known i is _ hi, kept_known i is _ hi, otherLines_cons i is hi]
      have hl : ¬ ∃ c D, i :: is = .other c :: D ∧ Cont c := by
        rintro ⟨c, D, he, _⟩
        simp only [List.cons.injEq] at he
        exact hi c he.1
      constructor
      · rw [ih2]
        simp [hi]
      · rw [ih2]
        simp only [hl, or_false]
        simp [hi]

theorem misplaced_iff (is : List Item) :
    kept false (is.map itemPiece) = (otherLines is).dropWhile (decide <| Cont ·) ↔ ¬ Misplaced is := by
  induction is with
  | nil =>
    refine ⟨fun _ => ?_, fun _ => rfl⟩
    rintro ⟨A, l, B, k, c, D, he, _⟩
    simp at he
  | cons i is ih =>
    have hmono : Misplaced is → Misplaced (i :: is) := by
      rintro ⟨A, l, B, k, c, D, he, h⟩
      exact ⟨i :: A, l, B, k, c, D, by rw [he]; rfl, h⟩
    by_cases hi : ∃ l, i = .other l
    · obtain ⟨l, rfl⟩ := hi
      rw [kept_other, otherLines_other]
      by_cases hc : Cont l
      · rw [if_pos ⟨hc, rfl⟩, List.dropWhile_cons_of_pos (by simpa using hc), ih]
        refine not_congr ⟨hmono, ?_⟩
        rintro ⟨A, l', B, k, c, D, he, hl', h⟩
        cases A with
        | nil =>
          simp only [List.nil_append, List.cons.injEq, Item.other.injEq] at he
          exact absurd hc (he.1 ▸ hl')
        | cons x A =>
          simp only [List.cons_append, List.cons.injEq] at he
          exact ⟨A, l', B, k, c, D, he.2, hl', h⟩
      · rw [if_neg (by simp [hc]), List.dropWhile_cons_of_neg (by simpa using hc), List.cons.injEq]
        simp only [true_and]
        rw [(kept_all is).1]
        refine not_congr ⟨?_, ?_⟩
        · rintro ⟨B, k, c, D, he, h⟩
          exact ⟨[], l, B, k, c, D, by rw [he]; rfl, hc, h⟩
        · rintro ⟨A, l', B, k, c, D, he, hl', h⟩
          cases A with
          | nil =>
            simp only [List.nil_append, List.cons.injEq] at he
            exact ⟨B, k, c, D, he.2, h⟩
          | cons x A =>
            simp only [List.cons_append, List.cons.injEq] at he
            exact ⟨A ++ .other l' :: B, k, c, D, by rw [he.2]; simp, h⟩
    · have hi : ∀ l, i ≠ .other l := fun l h => hi ⟨l, h⟩
      rw [kept_known i is _ hi, otherLines_cons i is hi, ih]
      refine not_congr ⟨hmono, ?_⟩
      rintro ⟨A, l', B, k, c, D, he, h⟩
      cases A with
      | nil =>
        simp only [List.nil_append, List.cons.injEq] at he
        exact absurd he.1 (hi l')
      | cons x A =>
        simp only [List.cons_append, List.cons.injEq] at he
        exact ⟨A, l', B, k, c, D, he.2, h⟩

/-- A commit is decoded and encoded. Its unknown headers are written with all of
their lines and in their order, and no others with them, exactly unless a known
header is continued behind one of them. -/
theorem multi_kept (N : Nat) (hN : 4096 ≤ N) (is : List Item) (h : ItemsOk N is) (hi : Indented is)
    (hfirst : ∀ l, is.head? ≠ some (.other l)) (msg : Bytes) (a k : PersonInfo)
    (ha : (commitOf is msg).author = some a) (hk : (commitOf is msg).committer = some k)
    (out : Bytes) (hout : Framed b!"commit" (itemsBody is msg) out) (hlen : (itemsBody is msg).length < 2 ^ 63) :
    ∃ o out' body', parseObject (σ := Stream) ⟨out, .eof, N⟩ = .ok o ∧ encObj o = .ok out' ∧
      Framed b!"commit" body' out' ∧
      (unknownFields body' = unknownFields (itemsBody is msg) ↔ ¬ Misplaced is) := by
  obtain ⟨h1, out', h2, h3, _⟩ := commit_reencode N hN is h msg a k ha hk out hout hlen
  refine ⟨_, out', _, h1, h2, h3, ?_⟩
  have hfine : ∀ i ∈ is, Fine i := fun i hm => fine_of_ok hN (itemsOk_mem is N h i hm)
    (fun g hg => hi g (hg ▸ hm))
  rw [multi_written hN h hi msg a k ha hk, unknown_items is msg hfine, ← misplaced_iff]
  have hb : kept true (is.map itemPiece) = kept false (is.map itemPiece) := by
    cases is with
    | nil => rfl
    | cons i is =>
      have : ∀ l, i ≠ .other l := fun l h => hfirst l (by simp [h])
      rw [kept_known i is _ this, kept_known i is _ this]
  rw [hb]
  constructor
  · intro he
    exact (gitFields_inj he).symm
  · intro he
    rw [he]

/-- In any case each unknown line is still there, and the unknown headers that are
written are made of these lines alone. -/
theorem multi_exact (N : Nat) (hN : 4096 ≤ N) (is : List Item) (h : ItemsOk N is) (hi : Indented is)
    (msg : Bytes) (a k : PersonInfo)
    (ha : (commitOf is msg).author = some a) (hk : (commitOf is msg).committer = some k)
    (out : Bytes) (hout : Framed b!"commit" (itemsBody is msg) out) (hlen : (itemsBody is msg).length < 2 ^ 63) :
    ∃ o out' body', parseObject (σ := Stream) ⟨out, .eof, N⟩ = .ok o ∧ encObj o = .ok out' ∧
      Framed b!"commit" body' out' ∧
      unknownFields body' = gitFields ((otherLines is).dropWhile (decide <| Cont ·)) := by
  obtain ⟨h1, out', h2, h3, _⟩ := commit_reencode N hN is h msg a k ha hk out hout hlen
  exact ⟨_, out', _, h1, h2, h3, multi_written hN h hi msg a k ha hk⟩

/-! ## Examples -/

/-- A commit with two headers of several lines that the package does not know, one
of them in front of the committer. -/
def multiItems : List Item :=
  [.tree (hex (List.replicate 20 1)) (List.replicate 20 1), .author samplePerson,
   .other b!"gpgsig-sha256 -----BEGIN PGP SIGNATURE-----", .other b!" ", .other b!" parent",
   .committer samplePerson, .sig sampleSig, .other b!"HG:extra a", .other b!" tree b"]

theorem multiItems_ok : ItemsOk 4096 multiItems := by
  have o : ∀ l : Bytes, (LF ∉ l ∧ l.getLast? ≠ some CR ∧ l.length < 4096) → l ≠ [] →
      (∀ p ∈ knownHeaders, ¬ p <+: l) → OtherOk 4096 l := fun l h1 h2 h3 => ⟨⟨h1.1, h1.2.1, h1.2.2⟩, h2, h3⟩
  refine ⟨ref_hex _ (by decide), by simp, ?_⟩
  refine ⟨⟨samplePerson_ok, headerLine_mk (by decide) (by omega)⟩, by simp, ?_⟩
  refine ⟨o _ (by decide) (by decide) (by decide), by simp, ?_⟩
  refine ⟨o _ (by decide) (by decide) (by decide), by simp, ?_⟩
  refine ⟨o _ (by decide) (by decide) (by decide), by simp, ?_⟩
  refine ⟨⟨samplePerson_ok, headerLine_mk (by decide) (by omega)⟩, by simp, ?_⟩
  refine ⟨(sampleSig_ok 4096 (by omega)), by simp, ?_⟩
  refine ⟨o _ (by decide) (by decide) (by decide), by simp, ?_⟩
  exact ⟨o _ (by decide) (by decide) (by decide), by simp, trivial⟩

theorem multiItems_indented : Indented multiItems := by
  intro g hg
  have : g = sampleSig := by simpa [multiItems] using hg
  subst this
  exact ⟨linesOf sampleSig, by decide, by decide⟩

example : unknownFields (itemsBody multiItems b!"m") =
    [[b!"gpgsig-sha256 -----BEGIN PGP SIGNATURE-----", b!" ", b!" parent"], [b!"HG:extra a", b!" tree b"]] := by
  decide +kernel

/-- They are all kept. -/
example : ¬ Misplaced multiItems := by
  rw [← misplaced_iff]
  decide +kernel

/-- In the sample of C33 a parent is continued behind an unknown header: the
continuation becomes a part of that header. -/
example : Misplaced sampleItems ∧
    unknownFields (itemsBody sampleItems b!"m") = [[b!"x y"]] ∧
    unknownFields (Spec.commitBody (commitOf sampleItems b!"m") samplePerson samplePerson) = [[b!"x y", b!" z"]] := by
  refine ⟨?_, by decide +kernel, by decide +kernel⟩
  exact ⟨sampleItems.take 5, b!"x y", [.sig sampleSig], .parent (hex (List.replicate 20 3)) (List.replicate 20 3), b!" z", [],
    rfl, by decide, by decide, by simp⟩

end Verif.Props
