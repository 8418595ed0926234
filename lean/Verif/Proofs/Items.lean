import Verif.Proofs.Cut

/-!
# The header items of a commit can be read off its text
-/

namespace Verif

open Spec Props

/-- The first line of an item. -/
def Item.first : Item → Bytes
  | .tree h _ => b!"tree " ++ h
  | .parent h _ => b!"parent " ++ h
  | .author p => b!"author " ++ personText p
  | .committer p => b!"committer " ++ personText p
  | .encoding e => b!"encoding " ++ e
  | .mergetag h _ => b!"mergetag object " ++ h
  | .sig _ => sigBegin
  | .other l => l

/-- What follows the first line. -/
def Item.more : Item → Bytes
  | .mergetag _ t => unlines [b!" type " ++ t.typ, b!" tag " ++ t.tag, b!" tagger " ++ personText t.tagger,
      b!" "] ++ t.message
  | .sig g => g ++ unlines [sigEnd]
  | _ => []

theorem item_text (i : Item) : i.text = Item.first i ++ LF :: Item.more i := by
  cases i <;> simp [Item.text, Item.first, Item.more, unlines, mergeTagBlock]

theorem item_first_noLF {N : Nat} (hN : 4096 ≤ N) {i : Item} (h : i.Ok N) : LF ∉ Item.first i := by
  cases i with
  | tree x sha => exact (headerLine_ref N _ _ _ (by decide) h (by simp; omega)).noLF
  | parent x sha => exact (headerLine_ref N _ _ _ (by decide) h (by simp; omega)).noLF
  | author p => exact h.2.noLF
  | committer p => exact h.2.noLF
  | encoding x => exact h.noLF
  | mergetag x t => exact (headerLine_ref N _ _ _ (by decide) h.1 (by simp; omega)).noLF
  | sig g => exact (by decide : LF ∉ sigBegin)
  | other l => exact h.line.noLF

/-- Number of the keyword that a line begins with. -/
def lineKind (l : Bytes) : Nat :=
  if b!"tree " <+: l then 0 else if b!"parent " <+: l then 1 else if b!"author " <+: l then 2
  else if b!"committer " <+: l then 3 else if b!"encoding " <+: l then 4
  else if b!"mergetag object " <+: l then 5 else if b!"gpgsig " <+: l then 6 else 7

/-- Number of the kind of an item. -/
def itemKind : Item → Nat
  | .tree _ _ => 0
  | .parent _ _ => 1
  | .author _ => 2
  | .committer _ => 3
  | .encoding _ => 4
  | .mergetag _ _ => 5
  | .sig _ => 6
  | .other _ => 7

theorem lineKind_first {N : Nat} {i : Item} (h : i.Ok N) : lineKind (Item.first i) = itemKind i := by
  have key : ∀ (l : Bytes),
      (b!"parent " <+: l → lineKind l = 1) ∧ (b!"author " <+: l → lineKind l = 2) ∧
      (b!"committer " <+: l → lineKind l = 3) ∧ (b!"encoding " <+: l → lineKind l = 4) ∧
      (b!"mergetag object " <+: l → lineKind l = 5) := by
    intro l
    refine ⟨fun hw => ?_, fun hw => ?_, fun hw => ?_, fun hw => ?_, fun hw => ?_⟩ <;> unfold lineKind
    · rw [if_neg (prefix_excl hw (by decide) (by decide)), if_pos hw]
    · rw [if_neg (prefix_excl hw (by decide) (by decide)), if_neg (prefix_excl hw (by decide) (by decide)),
        if_pos hw]
    · rw [if_neg (prefix_excl hw (by decide) (by decide)), if_neg (prefix_excl hw (by decide) (by decide)),
        if_neg (prefix_excl hw (by decide) (by decide)), if_pos hw]
    · rw [if_neg (prefix_excl hw (by decide) (by decide)), if_neg (prefix_excl hw (by decide) (by decide)),
        if_neg (prefix_excl hw (by decide) (by decide)), if_neg (prefix_excl hw (by decide) (by decide)),
        if_pos hw]
    · rw [if_neg (prefix_excl hw (by decide) (by decide)), if_neg (prefix_excl hw (by decide) (by decide)),
        if_neg (prefix_excl hw (by decide) (by decide)), if_neg (prefix_excl hw (by decide) (by decide)),
        if_neg (prefix_excl hw (by decide) (by decide)), if_pos hw]
  cases i with
  | tree x sha => unfold lineKind; exact if_pos ⟨x, rfl⟩
  | parent x sha => exact (key _).1 ⟨x, rfl⟩
  | author p => exact (key _).2.1 ⟨_, rfl⟩
  | committer p => exact (key _).2.2.1 ⟨_, rfl⟩
  | encoding x => exact (key _).2.2.2.1 ⟨_, rfl⟩
  | mergetag x t => exact (key _).2.2.2.2 ⟨_, rfl⟩
  | sig g => show lineKind sigBegin = 6; decide
  | other l =>
    show lineKind l = 7
    have := h.unknown
    unfold lineKind
    rw [if_neg (this _ (by simp [knownHeaders])), if_neg (this _ (by simp [knownHeaders])),
      if_neg (this _ (by simp [knownHeaders])), if_neg (this _ (by simp [knownHeaders])),
      if_neg (this _ (by simp [knownHeaders])), if_neg (this _ (by simp [knownHeaders])),
      if_neg (this _ (by simp [knownHeaders]))]

theorem ref_unique {x a b : Bytes} (ha : Ref x a) (hb : Ref x b) : a = b := by
  have h1 := (hexDecode_iff x a).2 ha.1
  have h2 := (hexDecode_iff x b).2 hb.1
  rw [h1] at h2
  simpa using h2

theorem personText_inj {p q : PersonInfo} (hp : PersonOk p) (hq : PersonOk q) (h : personText p = personText q) :
    p = q := by
  have h1 := person_line b!"author" p (by decide) hp
  have h2 := person_line b!"author" q (by decide) hq
  rw [h, h2] at h1
  simpa using h1.symm

/-- Lines up to a closing line. -/
theorem until_unique (E : Bytes) (hE : LF ∉ E) (ls ls' : List Bytes) (T U : Bytes)
    (h1 : ∀ l ∈ ls, LF ∉ l ∧ l ≠ E) (h2 : ∀ l ∈ ls', LF ∉ l ∧ l ≠ E)
    (h : unlines ls ++ (E ++ LF :: T) = unlines ls' ++ (E ++ LF :: U)) : ls = ls' ∧ T = U := by
  induction ls generalizing ls' with
  | nil =>
    cases ls' with
    | nil => exact ⟨rfl, (line_split hE hE (by simpa using h)).2⟩
    | cons y ys =>
      rw [unlines_cons, unlines_nil, List.nil_append] at h
      have hy := h2 y (by simp)
      exact absurd (line_split hE hy.1 h).1.symm hy.2
  | cons x ls ih =>
    have hx := h1 x (by simp)
    cases ls' with
    | nil =>
      rw [unlines_cons, unlines_nil, List.nil_append] at h
      exact absurd (line_split hx.1 hE h).1 hx.2
    | cons y ys =>
      rw [unlines_cons, unlines_cons] at h
      obtain ⟨rfl, h'⟩ := line_split hx.1 (h2 y (by simp)).1 h
      obtain ⟨rfl, h''⟩ := ih ys (fun l hl => h1 l (by simp [hl])) (fun l hl => h2 l (by simp [hl])) h'
      exact ⟨rfl, h''⟩

/-- Lines that begin with a space, up to something that does not. -/
theorem indented_unique (ls ls' : List Bytes) (T U : Bytes) (h1 : ∀ l ∈ ls, LF ∉ l ∧ l.head? = some SP)
    (h2 : ∀ l ∈ ls', LF ∉ l ∧ l.head? = some SP) (hT : T.head? ≠ some SP) (hU : U.head? ≠ some SP)
    (h : unlines ls ++ T = unlines ls' ++ U) : ls = ls' ∧ T = U := by
  have hsp : ∀ (x r : Bytes), x.head? = some SP → (x ++ r).head? = some SP := by
    intro x r hx
    cases x with
    | nil => simp at hx
    | cons c x => simpa using hx
  induction ls generalizing ls' with
  | nil =>
    cases ls' with
    | nil => exact ⟨rfl, by simpa using h⟩
    | cons y ys =>
      rw [unlines_cons, unlines_nil, List.nil_append] at h
      exact absurd (h ▸ hsp y _ (h2 y (by simp)).2) hT
  | cons x ls ih =>
    have hx := h1 x (by simp)
    cases ls' with
    | nil =>
      rw [unlines_cons, unlines_nil, List.nil_append] at h
      exact absurd (h.symm ▸ hsp x _ hx.2) hU
    | cons y ys =>
      rw [unlines_cons, unlines_cons] at h
      obtain ⟨rfl, h'⟩ := line_split hx.1 (h2 y (by simp)).1 h
      obtain ⟨rfl, h''⟩ := ih ys (fun l hl => h1 l (by simp [hl])) (fun l hl => h2 l (by simp [hl])) h'
      exact ⟨rfl, h''⟩

theorem sigOk_lines {N : Nat} {g : Bytes} (h : SigOk N g) :
    ∃ ls, g = unlines ls ∧ ∀ l ∈ ls, LF ∉ l ∧ l ≠ sigEnd := by
  obtain ⟨l, ls, rfl, h1, h2, h3⟩ := h
  refine ⟨l :: ls, rfl, fun x hx => ⟨(h1 x hx).noLF, ?_⟩⟩
  rcases List.mem_cons.1 hx with rfl | hx
  · rintro rfl
    revert h3
    decide
  · exact h2 x hx

theorem gitLink_inj {a b : Link} (ha : IsGitLink a) (hb : IsGitLink b) (h : digest a = digest b) : a = b := by
  rw [← gitLink_digest ha, ← gitLink_digest hb, h]

/-- The first item of a text. -/
theorem item_unique {N : Nat} (hN : 4096 ≤ N) {i j : Item} (hi : i.Ok N) (hj : j.Ok N) {T U : Bytes}
    (hT : (∃ x t, i = .mergetag x t) → T.head? ≠ some SP)
    (hU : (∃ x t, j = .mergetag x t) → U.head? ≠ some SP)
    (h : i.text ++ T = j.text ++ U) : i = j ∧ T = U := by
  rw [item_text, item_text, List.append_assoc, List.append_assoc, List.cons_append, List.cons_append] at h
  have h0 := line_split (item_first_noLF hN hi) (item_first_noLF hN hj) h
  clear h
  obtain ⟨hf, h⟩ := h0
  have hk : itemKind i = itemKind j := by rw [← lineKind_first hi, ← lineKind_first hj, hf]
  cases i <;> cases j <;> first | (simp [itemKind] at hk; done) | skip
  case tree x sha y sha' =>
    obtain rfl := List.append_cancel_left hf
    obtain rfl := ref_unique hi hj
    exact ⟨rfl, h⟩
  case parent x sha y sha' =>
    obtain rfl := List.append_cancel_left hf
    obtain rfl := ref_unique hi hj
    exact ⟨rfl, h⟩
  case author p q =>
    obtain rfl := personText_inj hi.1 hj.1 (List.append_cancel_left hf)
    exact ⟨rfl, h⟩
  case committer p q =>
    obtain rfl := personText_inj hi.1 hj.1 (List.append_cancel_left hf)
    exact ⟨rfl, h⟩
  case encoding x y =>
    obtain rfl := List.append_cancel_left hf
    exact ⟨rfl, h⟩
  case other x y =>
    simp only [Item.first] at hf
    subst hf
    exact ⟨rfl, h⟩
  case sig g g' =>
    obtain ⟨ls, rfl, h1⟩ := sigOk_lines hi
    obtain ⟨ls', rfl, h2⟩ := sigOk_lines hj
    obtain ⟨rfl, h'⟩ := until_unique sigEnd (by decide) ls ls' T U h1 h2 (by simpa [Item.more, unlines] using h)
    exact ⟨rfl, h'⟩
  case mergetag x t y u =>
    obtain ⟨hx, ht⟩ := hi
    obtain ⟨hy, hu⟩ := hj
    obtain rfl := List.append_cancel_left hf
    have hd := ref_unique hx hy
    obtain ⟨ms, hm, hms⟩ := ht.message
    obtain ⟨ms', hm', hms'⟩ := hu.message
    simp only [Item.more, List.append_assoc, unlines_cons, unlines_nil, List.nil_append] at h
    obtain ⟨e1, h⟩ := line_split ht.typ.noLF hu.typ.noLF (by simpa using h)
    obtain ⟨e2, h⟩ := line_split ht.tag.noLF hu.tag.noLF (by simpa using h)
    obtain ⟨e3, h⟩ := line_split ht.taggerLine.noLF hu.taggerLine.noLF (by simpa using h)
    obtain ⟨_, h⟩ := line_split (x := b!" ") (y := b!" ") (by decide) (by decide) (by simpa using h)
    rw [hm, hm'] at h
    obtain ⟨rfl, h'⟩ := indented_unique ms ms' T U (fun l hl => ⟨(hms l hl).2.noLF, (hms l hl).1⟩)
      (fun l hl => ⟨(hms' l hl).2.noLF, (hms' l hl).1⟩) (hT ⟨_, _, rfl⟩) (hU ⟨_, _, rfl⟩) h
    refine ⟨?_, h'⟩
    have e4 := gitLink_inj ht.object hu.object hd
    have e5 := personText_inj ht.tagger hu.tagger (List.append_cancel_left e3)
    have e6 := List.append_cancel_left e1
    have e7 := List.append_cancel_left e2
    have e8 := hm.trans hm'.symm
    have : t = u := by
      cases t
      cases u
      simp only [Tag.mk.injEq]
      exact ⟨e4, e6, e7, e5, e8⟩
    rw [this]

theorem items_head {N : Nat} {is : List Item} {i : Item} (h : ItemsOk N (i :: is)) (m : Bytes) :
    (∃ x t, i = .mergetag x t) → (itemsText is ++ LF :: m).head? ≠ some SP := by
  rintro ⟨x, t, rfl⟩
  cases is with
  | nil => simp [itemsText]; decide
  | cons j js =>
    have := item_head h.2.2.1 (fun l hl => h.2.1 x t l rfl (by simp [hl]))
    have hne : j.text ≠ [] := by rw [item_text]; simp
    cases hj : j.text with
    | nil => exact absurd hj hne
    | cons c r =>
      rw [hj] at this
      simpa [itemsText, hj] using this

theorem itemsText_cons (i : Item) (is : List Item) : itemsText (i :: is) = i.text ++ itemsText is := by
  simp [itemsText]

theorem itemsText_append (is js : List Item) : itemsText (is ++ js) = itemsText is ++ itemsText js := by
  simp [itemsText]

/-- No item begins with an empty line. -/
theorem item_no_blank {N : Nat} (hN : 4096 ≤ N) {i : Item} (hi : i.Ok N) (R m : Bytes) : i.text ++ R ≠ LF :: m := by
  intro h
  have h' : Item.first i ++ LF :: (Item.more i ++ R) = [] ++ LF :: m := by
    rw [List.nil_append, ← h]
    simp [item_text]
  have hf := (line_split (item_first_noLF hN hi) (by simp) h').1
  cases i <;> simp [Item.first, sigBegin] at hf
  exact hi.nonempty hf

/-- Items at the beginning of a text. -/
theorem items_peel {N : Nat} (hN : 4096 ≤ N) (is js : List Item) (hi : ItemsOk N is) (hj : ItemsOk N js)
    (m R : Bytes) (hR : R.head? ≠ some SP)
    (h : itemsText is ++ LF :: m = itemsText js ++ R) :
    ∃ ks, is = js ++ ks ∧ itemsText ks ++ LF :: m = R := by
  induction js generalizing is with
  | nil => exact ⟨is, rfl, by simpa [itemsText] using h⟩
  | cons j js ih =>
    rw [itemsText_cons j, List.append_assoc] at h
    cases is with
    | nil => exact absurd (by simpa [itemsText] using h.symm) (item_no_blank hN hj.1 (itemsText js ++ R) m)
    | cons i is =>
      rw [itemsText_cons i, List.append_assoc] at h
      have hh : (∃ x t, j = .mergetag x t) → (itemsText js ++ R).head? ≠ some SP := by
        rintro ⟨x, t, rfl⟩
        cases js with
        | nil => simpa [itemsText] using hR
        | cons j js =>
          have := item_head hj.2.2.1 (fun l hl => hj.2.1 x t l rfl (by simp [hl]))
          cases hj : j.text with
          | nil => rw [item_text] at hj; simp at hj
          | cons c r =>
            rw [hj] at this
            simpa [itemsText, hj] using this
      obtain ⟨rfl, h'⟩ := item_unique hN hi.1 hj.1 (items_head hi m) hh h
      obtain ⟨ks, rfl, h''⟩ := ih is hi.2.2 hj.2.2 h'
      exact ⟨ks, rfl, h''⟩

/-- A text is read as header items and a message in at most one way. -/
theorem items_unique {N : Nat} (hN : 4096 ≤ N) (is js : List Item) (hi : ItemsOk N is) (hj : ItemsOk N js)
    (m m' : Bytes) (h : itemsBody is m = itemsBody js m') : is = js ∧ m = m' := by
  unfold itemsBody at h
  obtain ⟨ks, rfl, h'⟩ := items_peel hN is js hi hj m (LF :: m')
    (fun h => absurd (Option.some.inj h) (by decide)) h
  cases ks with
  | nil => exact ⟨by simp, by simpa [itemsText] using h'⟩
  | cons k ks =>
    rw [itemsText_cons, List.append_assoc] at h'
    exact absurd h' (item_no_blank hN (itemsOk_mem _ N hi k (by simp)) _ _)

end Verif
