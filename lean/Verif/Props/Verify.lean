import Verif.Spec.Verify
import Verif.Props.GitWrite
import Verif.Props.Order
import Verif.Props.Fsck

/-!
# C109: signatures of commits after decoding and encoding
-/

namespace Verif.Props

open Verif Spec

theorem payload_plain {s : SigPlace} (xs ys : List Bytes) (h : ∀ l ∈ xs, ¬ b!"gpgsig" <+: l) (hs : s = .none) :
    payloadLines s (xs ++ ys) = xs ++ payloadLines .none ys ∧ signatureLines s (xs ++ ys) = signatureLines .none ys := by
  subst hs
  induction xs with
  | nil => exact ⟨rfl, rfl⟩
  | cons x xs ih =>
    have h1 : ¬ b!"gpgsig" <+: x := h x (by simp)
    have h2 : ¬ b!"gpgsig " <+: x := fun h => h1 (List.IsPrefix.trans ⟨b!" ", rfl⟩ h)
    have hi : sigPlace .none x = .none := by
      unfold sigPlace
      rw [if_neg h2, if_neg h1]
      split <;> rfl
    obtain ⟨h3, h4⟩ := ih fun l hl => h l (by simp [hl])
    constructor
    · rw [List.cons_append, payloadLines, hi, if_pos rfl, h3]; rfl
    · rw [List.cons_append, signatureLines, hi, if_neg (by decide), h4]; rfl

theorem spaced_prefix (w l : Bytes) (c : UInt8) (hc : c ≠ SP) : ¬ (c :: w) <+: SP :: l := by
  rintro ⟨t, ht⟩
  simp only [List.cons_append, List.cons.injEq] at ht
  exact hc ht.1

theorem payload_spaced (xs ys : List Bytes) :
    payloadLines .sig (xs.map (SP :: ·) ++ ys) = payloadLines .sig ys ∧
      signatureLines .sig (xs.map (SP :: ·) ++ ys) = xs ++ signatureLines .sig ys := by
  induction xs with
  | nil => exact ⟨rfl, rfl⟩
  | cons x xs ih =>
    have h2 : ¬ b!"gpgsig " <+: SP :: x := spaced_prefix _ _ _ (by decide)
    have h1 : ¬ b!"gpgsig" <+: SP :: x := spaced_prefix _ _ _ (by decide)
    have hi : sigPlace .sig (SP :: x) = .sig := by
      unfold sigPlace
      rw [if_neg h2, if_neg h1]
      rfl
    obtain ⟨h3, h4⟩ := ih
    constructor
    · rw [List.map_cons, List.cons_append, payloadLines, hi, if_neg (by decide), h3]; rfl
    · rw [List.map_cons, List.cons_append, signatureLines, hi, if_pos rfl, if_neg h2, h4]; rfl

theorem payload_unspaced (ys : List Bytes) (h : ∀ l ∈ ys, ¬ b!"gpgsig" <+: l) (hh : ∀ l, ys.head? = some l → l.head? ≠ some SP) :
    payloadLines .sig ys = ys ∧ signatureLines .sig ys = [] := by
  cases ys with
  | nil => exact ⟨rfl, rfl⟩
  | cons y ys =>
    have h1 : ¬ b!"gpgsig" <+: y := h y (by simp)
    have h2 : ¬ b!"gpgsig " <+: y := fun h => h1 (List.IsPrefix.trans ⟨b!" ", rfl⟩ h)
    have hi : sigPlace .sig y = .none := by
      unfold sigPlace
      rw [if_neg h2, if_neg h1, if_neg (hh y rfl)]
    obtain ⟨h3, h4⟩ := payload_plain (s := .none) ys [] (fun l hl => h l (by simp [hl])) rfl
    rw [List.append_nil] at h3 h4
    constructor
    · rw [payloadLines, hi, if_pos rfl, h3]; simp [payloadLines]
    · rw [signatureLines, hi, if_neg (by decide), h4]; rfl

/-- A signature between other lines. -/
theorem payload_signed (xs ys vs : List Bytes) (v : Bytes) (hx : ∀ l ∈ xs, ¬ b!"gpgsig" <+: l)
    (hy : ∀ l ∈ ys, ¬ b!"gpgsig" <+: l) (hh : ∀ l, ys.head? = some l → l.head? ≠ some SP) :
    payloadLines .none (xs ++ ((b!"gpgsig " ++ v) :: vs.map (SP :: ·) ++ ys)) = xs ++ ys ∧
      signatureLines .none (xs ++ ((b!"gpgsig " ++ v) :: vs.map (SP :: ·) ++ ys)) = v :: vs := by
  obtain ⟨h1, h2⟩ := payload_plain (s := .none) xs ((b!"gpgsig " ++ v) :: vs.map (SP :: ·) ++ ys) hx rfl
  obtain ⟨h3, h4⟩ := payload_spaced vs ys
  obtain ⟨h5, h6⟩ := payload_unspaced ys hy hh
  have hp : b!"gpgsig " <+: b!"gpgsig " ++ v := List.prefix_append _ _
  have hi : sigPlace .none (b!"gpgsig " ++ v) = .sig := by unfold sigPlace; rw [if_pos hp]
  constructor
  · rw [h1, List.cons_append, payloadLines, hi, if_neg (by decide), h3, h5]; rfl
  · rw [h2, List.cons_append, signatureLines, hi, if_pos rfl, if_pos hp, h4, h6]
    simp

/-- There is only one way to take a commit apart. -/
theorem verify_unique {body p s p' s' : Bytes} (h : GitSigned body p s) (h' : GitSigned body p' s') : p = p' ∧ s = s' := by
  obtain ⟨ls, msg, hl, hb, rfl, rfl⟩ := h
  obtain ⟨ls', msg', hl', hb', rfl, rfl⟩ := h'
  have key : ∀ (ls ls' : List Bytes) (msg msg' : Bytes), (∀ l ∈ ls, l ≠ [] ∧ LF ∉ l) → (∀ l ∈ ls', l ≠ [] ∧ LF ∉ l) →
      unlines ls ++ LF :: msg = unlines ls' ++ LF :: msg' → ls = ls' ∧ msg = msg' := by
    intro ls
    induction ls with
    | nil =>
      intro ls' msg msg' _ h' he
      cases ls' with
      | nil => simpa using he
      | cons l ls' =>
        rw [unlines_cons] at he
        obtain ⟨h1, h2⟩ := h' l (by simp)
        cases l with
        | nil => exact absurd rfl h1
        | cons c l =>
          simp only [unlines_nil, List.nil_append, List.cons_append, List.cons.injEq] at he
          exact absurd (by rw [he.1]; simp) h2
    | cons l ls ih =>
      intro ls' msg msg' h h' he
      obtain ⟨h1, h2⟩ := h l (by simp)
      cases ls' with
      | nil =>
        rw [unlines_cons] at he
        cases l with
        | nil => exact absurd rfl h1
        | cons c l =>
          simp only [unlines_nil, List.nil_append, List.cons_append, List.cons.injEq] at he
          exact absurd (by rw [he.1]; simp) h2
      | cons l' ls' =>
        rw [unlines_cons, unlines_cons] at he
        obtain ⟨e1, e2⟩ := split_first he h2 (h' l' (by simp)).2
        obtain ⟨e3, e4⟩ := ih ls' msg msg' (fun x hx => h x (by simp [hx])) (fun x hx => h' x (by simp [hx])) e2
        exact ⟨by rw [e1, e3], e4⟩
  obtain ⟨rfl, rfl⟩ := key ls ls' msg msg' hl hl' (hb ▸ hb')
  exact ⟨rfl, rfl⟩

/-! ## The lines of a commit -/

/-- The lines before the extra headers. -/
def madeFront (more : Bytes) (g : MadeCommit) : List Bytes :=
  [b!"tree " ++ hex g.tree]
  ++ g.parents.map (fun p => b!"parent " ++ hex p)
  ++ [b!"author " ++ g.author.text more, b!"committer " ++ g.committer.text more]
  ++ (g.encoding.map fun e => b!"encoding " ++ e).toList

theorem lines_front (more : Bytes) (g : MadeCommit) :
    g.lines more = madeFront more g ++ g.extra.flatMap (Extra.lines more) ++ sigHeaderLines g.sig := rfl

/-- A line that is not empty, has no LF and does not begin like a signature. -/
def CleanLine (l : Bytes) : Prop := l ≠ [] ∧ LF ∉ l ∧ ¬ b!"gpgsig" <+: l

theorem clean_word (c : UInt8) (w x : Bytes) (hc : c ≠ 0x67) (hw : LF ∉ c :: w) (hx : LF ∉ x) : CleanLine (c :: w ++ x) := by
  refine ⟨by simp, by rw [List.mem_append]; exact fun h => h.elim hw hx, ?_⟩
  rintro ⟨t, ht⟩
  simp only [List.cons_append, List.cons.injEq] at ht
  exact hc ht.1.symm

theorem front_clean (more : Bytes) {g : MadeCommit} (h : g.Ok) : ∀ l ∈ madeFront more g, CleanLine l := by
  intro l hl
  simp only [madeFront, List.mem_append, List.mem_singleton, List.mem_map, List.mem_cons, List.not_mem_nil, or_false,
    Option.mem_toList, Option.map_eq_some_iff] at hl
  have hx : ∀ sha : Bytes, sha.length = 20 → LF ∉ hex sha := fun sha hs => by
    have := hexLine_noLF [] sha (by simp) hs
    simpa using this
  rcases hl with ((rfl | ⟨p, hp, rfl⟩) | (rfl | rfl)) | ⟨e, he, rfl⟩
  · exact clean_word _ _ _ (by decide) (by decide) (hx _ h.tree)
  · exact clean_word _ _ _ (by decide) (by decide) (hx _ (h.parents p hp))
  · exact clean_word _ _ _ (by decide) (by decide) (made_noLF more h.author)
  · exact clean_word _ _ _ (by decide) (by decide) (made_noLF more h.committer)
  · exact clean_word _ _ _ (by decide) (by decide) (h.encoding e he)

theorem extra_clean (more : Bytes) {x : Extra} (h : x.Ok) (hf : ∀ k v, x = .other k v → ¬ b!"gpgsig" <+: k) :
    (∀ l ∈ x.lines more, CleanLine l) ∧ ∃ l r, x.lines more = l :: r ∧ l.head? ≠ some SP := by
  have key : ∀ k v : Bytes, k ≠ [] → SP ∉ k → LF ∉ k → ¬ b!"gpgsig" <+: k →
      (∀ l ∈ extraLines k v, CleanLine l) ∧ ∃ l r, extraLines k v = l :: r ∧ l.head? ≠ some SP := by
    intro k v h1 h2 h3 h4
    obtain ⟨x, r, he, hx, hxl, hr⟩ := extraLines_head k v
    constructor
    · rw [he]
      intro l hl
      rcases List.mem_cons.1 hl with rfl | hl
      · refine ⟨by simp [h1], by rw [List.mem_append]; exact fun h => h.elim h3 hxl, ?_⟩
        intro hp
        rcases hx with rfl | ⟨y, rfl⟩
        · rw [List.append_nil] at hp; exact h4 hp
        · obtain ⟨t, ht⟩ := hp
          rcases List.append_eq_append_iff.1 ht with ⟨a, ha, _⟩ | ⟨c, hc, hd⟩
          · exact h4 ⟨a, ha.symm⟩
          · cases c with
            | nil => exact h4 ⟨[], by rw [hc]; simp⟩
            | cons c cs =>
              simp only [List.cons_append, List.cons.injEq] at hd
              have : SP ∈ b!"gpgsig" := by rw [hc, hd.1]; simp
              exact absurd this (by decide)
      · obtain ⟨l', rfl, hl'⟩ := hr l hl
        refine ⟨by simp, ?_, spaced_prefix _ _ _ (by decide)⟩
        intro h
        rcases List.mem_cons.1 h with h | h
        · exact absurd h (by decide)
        · exact hl' h
    · refine ⟨_, _, he, ?_⟩
      cases k with
      | nil => exact absurd rfl h1
      | cons c k => intro h; simp only [List.cons_append, List.head?_cons, Option.some.injEq] at h; subst h; simp at h2
  cases x with
  | mergetag t => exact key _ _ (by decide) (by decide) (by decide) (by decide)
  | other k v => exact key k v h.1 h.2.1 h.2.2.1 (hf k v rfl)

/-! ## What is written again -/

theorem merged_text (more : Bytes) (xs : List Extra) (h : ∀ x ∈ xs, x.Ok) :
    (xs.filterMap (Extra.merged more)).flatMap mergeTagText =
      unlines ((xs.filter Extra.isMerge).flatMap (Extra.lines more)) := by
  rw [← itemsText_extra more _ fun x hx => h x (List.mem_filter.1 hx).1]
  induction xs with
  | nil => rfl
  | cons x xs ih =>
    have ih := ih fun x hx => h x (by simp [hx])
    cases x with
    | mergetag t =>
      rw [List.filterMap_cons_some (f := Extra.merged more) (a := .mergetag t) (b := t.merged more) rfl, List.filter_cons_of_pos rfl, List.flatMap_cons, ih,
        List.flatMap_cons, itemsText_append]
      congr 1
      simp [extraItems, itemsText, Item.text, mergeTagText, MadeTag.merged, digest_gitLink]
    | other k v => rw [List.filterMap_cons_none rfl, List.filter_cons_of_neg (by simp [Extra.isMerge]), ih]

theorem unknown_lines (more : Bytes) (xs : List Extra) :
    xs.flatMap Extra.unknown = (xs.filter fun x => !x.isMerge).flatMap (Extra.lines more) := by
  induction xs with
  | nil => rfl
  | cons x xs ih =>
    cases x with
    | mergetag t => rw [List.flatMap_cons, List.filter_cons_of_neg (by simp [Extra.isMerge]), ih]; rfl
    | other k v => rw [List.flatMap_cons, List.filter_cons_of_pos rfl, List.flatMap_cons, ih]; rfl

theorem sig_lines (s : Option (SigFormat × List Bytes)) (h : ReadableSig s) :
    sigText (s.map fun s => unlines (s.2.map (SP :: ·))) = unlines (sigHeaderLines s) := by
  cases s with
  | none => rfl
  | some s =>
    obtain ⟨f, ls⟩ := s
    obtain ⟨rfl, _⟩ := h
    have e1 : sigBegin = b!"gpgsig " ++ SigFormat.first .pgp := by decide +kernel
    have e2 : sigEnd = SP :: SigFormat.last .pgp := by decide +kernel
    simp only [Option.map_some, sigText, sigHeaderLines, e1, e2, List.map_append, List.map_cons, List.map_nil]
    simp [unlines]

/-- The lines that Encode writes for a commit that git made. -/
def againLines (more : Bytes) (g : MadeCommit) : List Bytes :=
  madeFront more g ++ (g.extra.filter Extra.isMerge).flatMap (Extra.lines more) ++
    (sigHeaderLines g.sig ++ (g.extra.filter fun x => !x.isMerge).flatMap (Extra.lines more))

theorem body_again (more : Bytes) (g : MadeCommit) (h : g.Ok) (hr : ReadableSig g.sig) :
    commitBody (g.node more) (g.author.person more) (g.committer.person more) =
      unlines (againLines more g) ++ LF :: g.msg := by
  have hf : unlines (madeFront more g) = itemsText (firstItems more g) := (itemsText_first more g h).symm
  unfold againLines
  rw [unlines_append, unlines_append, unlines_append, hf, ← merged_text more _ h.extra, ← unknown_lines, ← sig_lines _ hr]
  unfold commitBody firstItems MadeCommit.node
  cases he : g.encoding with
  | none =>
    simp [itemsText, Item.text, unlines, digest_gitLink, encodingText, List.flatMap_map, Function.comp_def]
  | some e =>
    simp [itemsText, Item.text, unlines, digest_gitLink, encodingText, List.flatMap_map, Function.comp_def]

theorem node_encodes (more : Bytes) (g : MadeCommit) (h : g.Ok) (hr : ReadableSig g.sig) :
    encObj (.commit (g.node more)) = .ok (withHeader b!"commit" (unlines (againLines more g) ++ LF :: g.msg)) := by
  rw [← body_again more g h hr]
  refine encCommit_text _ _ _ (.inl ⟨g.tree, h.tree, rfl⟩) ?_ rfl rfl ?_
  · intro p hp
    obtain ⟨sha, hs, rfl⟩ := List.mem_map.1 hp
    exact ⟨sha, h.parents sha hs, rfl⟩
  · intro t ht
    obtain ⟨x, hx, hm⟩ := List.mem_filterMap.1 ht
    cases x with
    | mergetag m =>
      simp only [Extra.merged, Option.some.injEq] at hm
      subst hm
      exact ⟨m.object, (h.extra _ hx).object, rfl⟩
    | other k v => simp [Extra.merged] at hm

theorem extras_clean (more : Bytes) (xs : List Extra) (h : ∀ x ∈ xs, x.Ok) (hf : NoForeignSig xs) :
    (∀ l ∈ xs.flatMap (Extra.lines more), CleanLine l) ∧
      ∀ l, (xs.flatMap (Extra.lines more)).head? = some l → l.head? ≠ some SP := by
  constructor
  · intro l hl
    obtain ⟨x, hx, hl⟩ := List.mem_flatMap.1 hl
    exact (extra_clean more (h x hx) fun k v he => hf k v (he ▸ hx)).1 l hl
  · cases xs with
    | nil => simp
    | cons x xs =>
      obtain ⟨l, r, he, hs⟩ := (extra_clean more (h x (by simp)) fun k v he => hf k v (by simp [he])).2
      intro l' hl'
      rw [List.flatMap_cons, he] at hl'
      simp only [List.cons_append, List.head?_cons, Option.some.injEq] at hl'
      exact hl' ▸ hs

theorem sigLines_clean {f : SigFormat} {ls : List Bytes} (hl : ∀ l ∈ ls, LF ∉ l) :
    ∀ l ∈ sigHeaderLines (some (f, ls)), l ≠ [] ∧ LF ∉ l := by
  intro l h
  have h1 : LF ∉ f.first ∧ LF ∉ f.last := by cases f <;> decide
  simp only [sigHeaderLines, List.mem_cons, List.mem_map, List.mem_append, List.not_mem_nil, or_false] at h
  rcases h with rfl | ⟨x, hx | rfl, rfl⟩
  · refine ⟨by simp, ?_⟩
    rw [List.mem_append]
    exact fun h => h.elim (by decide) h1.1
  · refine ⟨by simp, fun h => ?_⟩
    rcases List.mem_cons.1 h with h | h
    · exact absurd h (by decide)
    · exact hl x hx h
  · refine ⟨by simp, fun h => ?_⟩
    rcases List.mem_cons.1 h with h | h
    · exact absurd h (by decide)
    · exact h1.2 h

/-- Git takes a commit with a signature between its lines apart. -/
theorem lines_signed {f : SigFormat} {ls : List Bytes} (hl : ∀ l ∈ ls, LF ∉ l) (xs ys : List Bytes) (msg : Bytes)
    (hx : ∀ l ∈ xs, CleanLine l) (hy : ∀ l ∈ ys, CleanLine l) (hh : ∀ l, ys.head? = some l → l.head? ≠ some SP) :
    GitSigned (unlines (xs ++ (sigHeaderLines (some (f, ls)) ++ ys)) ++ LF :: msg) (unlines (xs ++ ys) ++ LF :: msg)
      (armourText f ls) := by
  obtain ⟨h1, h2⟩ := payload_signed xs ys (ls ++ [f.last]) f.first (fun l h => (hx l h).2.2) (fun l h => (hy l h).2.2) hh
  refine ⟨_, msg, ?_, rfl, ?_, ?_⟩
  · intro l h
    rw [List.mem_append, List.mem_append] at h
    rcases h with h | h | h
    · exact ⟨(hx l h).1, (hx l h).2.1⟩
    · exact sigLines_clean hl l h
    · exact ⟨(hy l h).1, (hy l h).2.1⟩
  · rw [show sigHeaderLines (some (f, ls)) = (b!"gpgsig " ++ f.first) :: (ls ++ [f.last]).map (SP :: ·) from rfl, h1]
  · rw [show sigHeaderLines (some (f, ls)) = (b!"gpgsig " ++ f.first) :: (ls ++ [f.last]).map (SP :: ·) from rfl, h2]
    rfl

/-! ## The theorems -/

/-- The commit as it was when it was signed. -/
def unsigned (g : MadeCommit) (xs : List Extra) : MadeCommit := { g with sig := none, extra := xs }

/-- What git takes for signed is the commit as it was before it was signed. -/
theorem verify_made (more : Bytes) (g : MadeCommit) (h : g.Ok) (hx : NoForeignSig g.extra) {f : SigFormat} {ls : List Bytes}
    (hs : g.sig = some (f, ls)) :
    GitSigned (g.body more) ((unsigned g g.extra).body more) (armourText f ls) := by
  obtain ⟨h1, _⟩ := extras_clean more g.extra h.extra hx
  have := lines_signed (f := f) (h.sig f ls hs).2 (madeFront more g ++ g.extra.flatMap (Extra.lines more)) [] g.msg
    (fun l hl => (List.mem_append.1 hl).elim (front_clean more h l) (h1 l)) (by simp) (by simp)
  rw [List.append_nil, List.append_nil, ← hs] at this
  have e : (unsigned g g.extra).body more =
      unlines (madeFront more g ++ g.extra.flatMap (Extra.lines more)) ++ LF :: g.msg := by
    rw [MadeCommit.body, lines_front]
    simp [unsigned, sigHeaderLines, madeFront]
  rw [e]
  exact this

/-- In what Encode writes git finds the same signature, and as signed the same
commit with the merged tags before the other extra headers. -/
theorem verify_again (N : Nat) (hN : 4096 ≤ N) (more : Bytes) (g : MadeCommit) (h : g.Ok) (hf : LinesFit N (g.lines more))
    (hx : NoForeignSig g.extra) (hr : ReadableSig g.sig) {f : SigFormat} {ls : List Bytes} (hs : g.sig = some (f, ls))
    (out : Bytes) (hout : Framed b!"commit" (g.body more) out) (hlen : (g.body more).length < 2 ^ 63) :
    ∃ c out' body', parseObject (σ := Stream) ⟨out, .eof, N⟩ = .ok (.commit c) ∧ encObj (.commit c) = .ok out' ∧
      Framed b!"commit" body' out' ∧
      GitSigned body' ((unsigned g (mergesFirst g.extra)).body more) (armourText f ls) := by
  refine ⟨g.node more, _, _, ((written_commit N hN more g h hf out hout hlen).1 hr).1, node_encodes more g h hr,
    framed_withHeader _ _, ?_⟩
  have hm : ∀ p : Extra → Bool, (∀ x ∈ g.extra.filter p, x.Ok) ∧ NoForeignSig (g.extra.filter p) := fun p =>
    ⟨fun x h' => h.extra x (List.mem_filter.1 h').1, fun k v h' => hx k v (List.mem_filter.1 h').1⟩
  obtain ⟨h1, _⟩ := extras_clean more _ (hm Extra.isMerge).1 (hm Extra.isMerge).2
  obtain ⟨h2, h3⟩ := extras_clean more _ (hm fun x => !x.isMerge).1 (hm fun x => !x.isMerge).2
  have := lines_signed (f := f) (h.sig f ls hs).2
    (madeFront more g ++ (g.extra.filter Extra.isMerge).flatMap (Extra.lines more))
    ((g.extra.filter fun x => !x.isMerge).flatMap (Extra.lines more)) g.msg
    (fun l hl => (List.mem_append.1 hl).elim (front_clean more h l) (h1 l)) h2 h3
  rw [← hs] at this
  have e : (unsigned g (mergesFirst g.extra)).body more =
      unlines (madeFront more g ++ (g.extra.filter Extra.isMerge).flatMap (Extra.lines more) ++
        (g.extra.filter fun x => !x.isMerge).flatMap (Extra.lines more)) ++ LF :: g.msg := by
    rw [MadeCommit.body, lines_front]
    simp [unsigned, sigHeaderLines, madeFront, mergesFirst]
  rw [e]
  exact this

theorem unsigned_ok {g : MadeCommit} (h : g.Ok) : (unsigned g g.extra).Ok :=
  ⟨h.tree, h.parents, h.author, h.committer, h.encoding, h.extra, by simp [unsigned]⟩

/-- So the signature still verifies exactly if the merged tags are before the other
extra headers. -/
theorem verify_exact (N : Nat) (hN : 4096 ≤ N) (more : Bytes) (g : MadeCommit) (h : g.Ok) (hf : LinesFit N (g.lines more))
    (hx : NoForeignSig g.extra) (hr : ReadableSig g.sig) {f : SigFormat} {ls : List Bytes} (hs : g.sig = some (f, ls))
    (out : Bytes) (hout : Framed b!"commit" (g.body more) out) (hlen : (g.body more).length < 2 ^ 63)
    (payload sig : Bytes) (hg : GitSigned (g.body more) payload sig) :
    ∃ c out' body' payload', parseObject (σ := Stream) ⟨out, .eof, N⟩ = .ok (.commit c) ∧
      encObj (.commit c) = .ok out' ∧ Framed b!"commit" body' out' ∧ GitSigned body' payload' sig ∧
      (payload' = payload ↔
        ∃ (ms : List MadeTag) (os : List (Bytes × Bytes)), g.extra = ms.map .mergetag ++ os.map (fun o => .other o.1 o.2)) := by
  obtain ⟨c, out', body', h1, h2, h3, h4⟩ := verify_again N hN more g h hf hx hr hs out hout hlen
  obtain ⟨rfl, rfl⟩ := verify_unique hg (verify_made more g h hx hs)
  refine ⟨c, out', body', _, h1, h2, h3, h4, ?_⟩
  have hf0 : LinesFit N ((unsigned g g.extra).lines more) := by
    intro l hl
    refine hf l ?_
    rw [lines_front] at hl ⊢
    rw [List.mem_append] at hl ⊢
    rcases hl with hl | hl
    · exact .inl hl
    · simp [unsigned, sigHeaderLines] at hl
  have hlen0 : ((unsigned g g.extra).body more).length < 2 ^ 63 := by
    refine Nat.lt_of_le_of_lt ?_ hlen
    rw [MadeCommit.body, MadeCommit.body, lines_front, lines_front]
    simp only [unlines_append, List.length_append]
    simp [unsigned, sigHeaderLines, madeFront]
  have hw := ((written_commit N hN more _ (unsigned_ok h) hf0 _ (framed_withHeader _ _) hlen0).1 trivial).2
  rw [node_encodes more _ (unsigned_ok h) trivial] at hw
  have e : unlines (againLines more (unsigned g g.extra)) ++ LF :: (unsigned g g.extra).msg =
      (unsigned g (mergesFirst g.extra)).body more := by
    rw [MadeCommit.body, lines_front]
    simp [unsigned, sigHeaderLines, madeFront, mergesFirst, againLines]
  rw [e] at hw
  constructor
  · intro he
    obtain ⟨ms, os, h5, _⟩ := hw.1 (by rw [he])
    exact ⟨ms, os, h5⟩
  · rintro ⟨ms, os, h5⟩
    exact withHeader_inj (Res.ok.inj (hw.2 ⟨ms, os, h5, fun h => absurd rfl h⟩))

/-! ## Cases that meet the hypotheses -/

def hgExtra : Extra := .other b!"HG:extra" b!"a\nb"

/-- A signed merge with another extra header: the bytes change (`Reproduced` fails), the
signature still verifies. -/
example : (madeCommit [hgExtra] .pgp pgpLines).Ok ∧ LinesFit 4096 ((madeCommit [hgExtra] .pgp pgpLines).lines marks) ∧
    NoForeignSig (madeCommit [hgExtra] .pgp pgpLines).extra ∧ ReadableSig (madeCommit [hgExtra] .pgp pgpLines).sig ∧
    (∃ (ms : List MadeTag) (os : List (Bytes × Bytes)),
      (madeCommit [hgExtra] .pgp pgpLines).extra = ms.map .mergetag ++ os.map (fun o => .other o.1 o.2)) ∧
    ¬ Reproduced (madeCommit [hgExtra] .pgp pgpLines) := by
  refine ⟨madeCommit_ok _ ?_ pgpLines_ok.1 (by decide), ?_, ?_, ⟨rfl, pgpLines_ok.2.1⟩,
    ⟨[madeTag], [(b!"HG:extra", b!"a\nb")], rfl⟩, ?_⟩
  · intro x hx
    rw [List.mem_singleton] at hx
    subst hx
    exact ⟨by decide, by decide, by decide, by decide⟩
  · unfold LinesFit
    decide +kernel
  · intro k v h
    have : k = b!"HG:extra" := by
      simp only [madeCommit, hgExtra, List.mem_cons, List.not_mem_nil, or_false, reduceCtorEq, false_or, Extra.other.injEq] at h
      exact h.1
    subst this
    decide
  · rintro ⟨ms, os, he, ho⟩
    have := ho (by simp [madeCommit])
    subst this
    have h : hgExtra ∈ ms.map Extra.mergetag := by
      have : (madeCommit [hgExtra] .pgp pgpLines).extra = ms.map Extra.mergetag := by simpa using he
      rw [← this]
      simp [madeCommit]
    simp [hgExtra] at h

/-- With the merged tag behind the other header it does not. -/
example : ¬ ∃ (ms : List MadeTag) (os : List (Bytes × Bytes)),
    [hgExtra, .mergetag madeTag] = ms.map Extra.mergetag ++ os.map (fun o => Extra.other o.1 o.2) := by
  rintro ⟨ms, os, he⟩
  cases ms with
  | cons m ms => simp [hgExtra] at he
  | nil =>
    have : Extra.mergetag madeTag ∈ os.map (fun o => Extra.other o.1 o.2) := by
      rw [List.map_nil, List.nil_append] at he
      rw [← he]
      simp
    simp at this

/-- A header for another hash is neither signed nor the signature. -/
example : payloadLines .none [b!"tree x", b!"gpgsig-sha256 a", b!" b", b!"gpgsig c", b!" d", b!"e f", b!" g"] =
      [b!"tree x", b!"e f", b!" g"] ∧
    signatureLines .none [b!"tree x", b!"gpgsig-sha256 a", b!" b", b!"gpgsig c", b!" d", b!"e f", b!" g"] =
      [b!"c", b!"d"] := by
  decide +kernel

end Verif.Props
