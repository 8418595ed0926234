import Verif.Props.Settle
import Verif.Props.Survive

/-!
# Exactly which objects settle (C45)
-/

namespace Verif.Props

open Verif Spec

/-- The header lines that are written for the object are shorter than the buffer. -/
def HeadFits (M : Nat) : Obj → Prop
  | .blob _ => True
  | .tree _ => True
  | .tag t => ShortLines M (tagHead t)
  | .commit c => ∀ a k, c.author = some a → c.committer = some k → ShortLines M (commitHead c a k)

theorem short_iff {M : Nat} {H : Bytes} : ShortLines M H ↔ ∀ l, l <:+: H → LF ∉ l → l.length < M :=
  ⟨fun h l ⟨p, r, hl⟩ hn => h p l r (by rw [← hl, List.append_assoc]) hn,
    fun h p l r hb hn => h l ⟨p, r, by rw [hb, List.append_assoc]⟩ hn⟩

/-- Lines that do not end in CR leave no CR LF. -/
theorem noCRLF_unlines {ls : List Bytes} (h : ∀ l ∈ ls, LF ∉ l ∧ l.getLast? ≠ some CR) :
    ¬ [CR, LF] <:+: unlines ls := by
  induction ls with
  | nil =>
    rintro ⟨p, r, hp⟩
    simp [unlines] at hp
  | cons l ls ih =>
    rintro ⟨p, r, hp⟩
    have hl := h l (by simp)
    have hp : p ++ CR :: LF :: r = l ++ LF :: unlines ls := by simpa [unlines] using hp
    rcases List.append_eq_append_iff.1 hp with ⟨u, h1, h2⟩ | ⟨u, h1, h2⟩
    · cases u with
      | nil => simp at h2; exact absurd h2.1 (by decide)
      | cons c u =>
        simp only [List.cons_append, List.cons.injEq] at h2
        obtain ⟨rfl, h2⟩ := h2
        cases u with
        | nil => exact hl.2 (by rw [h1]; simp)
        | cons c u =>
          simp only [List.cons_append, List.cons.injEq] at h2
          exact hl.1 (by rw [h1, ← h2.1]; simp)
    · cases u with
      | nil => simp at h2; exact absurd h2.1.symm (by decide)
      | cons c u =>
        simp only [List.cons_append, List.cons.injEq] at h2
        exact ih (fun l hl => h l (by simp [hl])) ⟨u, r, by simp [h2.2]⟩

theorem short_blank {M : Nat} (hM : 0 < M) {H : Bytes} (h : ShortLines M H) : ShortLines M (H ++ [LF]) := by
  intro p l r hb hn
  rcases List.eq_nil_or_concat r with rfl | ⟨r', z, rfl⟩
  · rw [List.append_nil] at hb
    rcases List.eq_nil_or_concat l with rfl | ⟨l', z, rfl⟩
    · exact hM
    · have := congrArg List.getLast? hb
      rw [List.concat_eq_append, ← List.append_assoc] at this
      simp at this
      exact absurd (by simp [this]) hn
  · have hb : H ++ [LF] = (p ++ (l ++ r')) ++ [z] := by simpa using hb
    have := (List.append_inj' hb rfl).1
    exact h p l r' this hn

theorem commitHeader_eq (c : Commit) (a k : PersonInfo) : commitHeader c a k = commitHead c a k ++ [LF] := by
  simp [commitHeader, commitBody, commitHead, unlines]

theorem tagOk_settled {M : Nat} {t : Tag} (hM : 4096 ≤ M) (h : TagOk M t) (hs : ShortLines M (tagHead t)) :
    Settled M (.tag t) := by
  have hne : t.object ≠ .nil := by
    intro hn
    have := h.object
    rw [hn] at this
    exact absurd (digest_length this) (by decide)
  refine ⟨hne, ⟨h.tagger.emailOpen, h.tagger.tzDate⟩, noCRLF_unlines ?_, short_iff.1 hs⟩
  have hl0 := hex_line hM b!"object " t.object (by decide) (by decide) (by decide) (.inl h.object)
  intro l hl
  simp only [List.mem_cons, List.not_mem_nil, or_false] at hl
  rcases hl with rfl | rfl | rfl | rfl
  · exact ⟨hl0.noLF, hl0.noCR⟩
  · exact ⟨h.typ.noLF, h.typ.noCR⟩
  · exact ⟨h.tag.noLF, h.tag.noCR⟩
  · exact ⟨h.taggerLine.noLF, h.taggerLine.noCR⟩

theorem linesOf_of {ls : List Bytes} (h : ∀ l ∈ ls, LF ∉ l) : linesOf (unlines ls) = ls := linesOf_unlines ls h

theorem commitOk_settled {M : Nat} {c : Commit} {a k : PersonInfo} (hM : 4096 ≤ M) (h : CommitOk M c a k)
    (hs : ShortLines M (commitHead c a k)) : Settled M (.commit c) := by
  have hne : c.tree ≠ .nil := by
    intro hn
    have := h.tree
    rw [hn] at this
    exact absurd (digest_length this) (by decide)
  refine ⟨hne, a, k, h.authorIs, h.committerIs, ⟨h.authorOk.emailOpen, h.authorOk.tzDate⟩,
    ⟨h.committerOk.emailOpen, h.committerOk.tzDate⟩,
    fun t ht => ⟨(h.mergetag t ht).tagger.emailOpen, (h.mergetag t ht).tagger.tzDate⟩, h.afterTag, ?_, short_iff.1 hs⟩
  have hm : ∀ t ∈ c.mergetag, IsLines t.message := by
    intro t ht
    obtain ⟨ls, h1, h2⟩ := (h.mergetag t ht).message
    exact ⟨ls, h1, fun l hl => (h2 l hl).2.noLF⟩
  have hg : ∀ g, c.signature = some g → IsLines g := by
    intro g hg
    obtain ⟨l, ls, h1, h2, _⟩ := h.signature g hg
    exact ⟨l :: ls, h1, fun x hx => (h2 x hx).noLF⟩
  have hb := commitBody_lines { c with message := [] } a k hm hg
  have hb' : commitHead c a k = unlines (headerLines c a k) := by
    have : commitHead c a k ++ [LF] = unlines (headerLines c a k) ++ [LF] := by
      rw [← commitHeader_eq]; exact hb
    exact (List.append_inj' this rfl).1
  rw [hb']
  refine noCRLF_unlines ?_
  have line : ∀ {l}, HeaderLine M l → LF ∉ l ∧ l.getLast? ≠ some CR := fun h => ⟨h.noLF, h.noCR⟩
  have href : ∀ (w : Bytes) (l : Link), w.length ≤ 20 → LF ∉ w → w.getLast? ≠ some CR → IsGitLink l →
      LF ∉ w ++ hex (digest l) ∧ (w ++ hex (digest l)).getLast? ≠ some CR :=
    fun w l h1 h2 h3 h4 => line (hex_line hM w l h1 h2 h3 (.inl h4))
  intro l hl
  simp only [headerLines, frontLines, List.mem_append, List.mem_cons, List.not_mem_nil, or_false, List.mem_map,
    Option.mem_toList, Option.map_eq_some_iff, List.mem_flatMap] at hl
  rcases hl with (((rfl | ⟨p, hp, rfl⟩) | rfl | rfl) | ⟨e, he, rfl⟩) | ⟨t, ht, hl⟩ | hl | hl
  · exact href _ _ (by decide) (by decide) (by decide) h.tree
  · exact href _ _ (by decide) (by decide) (by decide) (h.parents p hp)
  · exact line h.authorLine
  · exact line h.committerLine
  · exact line (h.encoding e he)
  · have hk := h.mergetag t ht
    obtain ⟨ls, h1, h2⟩ := hk.message
    simp only [mergeLines, List.mem_append, List.mem_cons, List.not_mem_nil, or_false] at hl
    rcases hl with (rfl | rfl | rfl | rfl | rfl) | hl
    · exact href _ _ (by decide) (by decide) (by decide) hk.object
    · exact line hk.typ
    · exact line hk.tag
    · exact line hk.taggerLine
    · exact ⟨by decide, by decide⟩
    · rw [h1, linesOf_of (fun l hl => (h2 l hl).2.noLF)] at hl
      exact line (h2 l hl).2
  · cases hgs : c.signature with
    | none => rw [hgs] at hl; cases hl
    | some g =>
      rw [hgs] at hl
      obtain ⟨x, ls, h1, h2, _⟩ := h.signature g hgs
      simp only [sigLines, List.mem_cons, List.mem_append, List.not_mem_nil, or_false] at hl
      rw [h1, linesOf_of (fun l hl => (h2 l hl).noLF)] at hl
      rcases hl with rfl | hl | rfl
      · exact ⟨by decide, by decide⟩
      · exact line (h2 l hl)
      · exact ⟨by decide, by decide⟩
  · exact line (h.other l hl).line

/-- The encoding of a decoded object whose header lines fit the buffer decodes to the
same object exactly if the object is `Settled`; the encoding is then written again. -/
theorem settle_exact (s : Stream) (hN : 2 ≤ s.bufsz) (o : Obj) (h : parseObject s = .ok o) (M : Nat) (hM : 4096 ≤ M)
    (hf : HeadFits M o) (y : Bytes) (hy : encObj o = .ok y) (hlen : y.length < 2 ^ 63) :
    (∃ o', parseObject (σ := Stream) ⟨y, .eof, M⟩ = .ok o' ∧ Same o' o) ↔ Settled M o := by
  refine ⟨?_, fun hs => ?_⟩
  rotate_left
  · obtain ⟨o', h1, h2, -⟩ := settle_partial s hN o h M hM hs y hy hlen
    exact ⟨o', h1, h2⟩
  rintro ⟨o', h1, h2⟩
  cases o with
  | blob b => trivial
  | tree t => trivial
  | tag t =>
    have h2 : o' = .tag t := by cases o' <;> first | exact h2 | cases h2
    subst h2
    have hf : ShortLines M (tagHead t) := hf
    have line : ∀ l, l ∈ [b!"object " ++ hex (digest t.object), b!"type " ++ t.typ,
        b!"tag " ++ t.tag, b!"tagger " ++ personText t.tagger] → LF ∉ l → l.length < M :=
      fun l hm hn => short_iff.1 hf l ((List.prefix_append _ _).isInfix.trans (line_infix hm)) hn
    have hs := decoded_tag_shape s hN t h
    have h3 : LF ∉ b!"type " ++ t.typ := by
      rcases hs.typ with h | h
      · rw [h]; decide
      · exact h
    have h4 : LF ∉ b!"tag " ++ t.tag := by
      rcases hs.tag with h | h
      · rw [h]; decide
      · exact h
    have h5 : LF ∉ b!"tagger " ++ personText t.tagger := by
      refine noLF_append.2 ⟨by decide, ?_⟩
      rcases hs.tagger with h | h
      · rw [h]; decide
      · exact person_noLF h
    exact tagOk_settled hM ((tag_survives M hM t (line _ (by simp) h3) (line _ (by simp) h4)
      (line _ (by simp) h5)).1 ⟨y, hy, h1⟩) hf
  | commit c =>
    have h2 : o' = .commit c := by cases o' <;> first | exact h2 | cases h2
    subst h2
    have hs := decoded_commit_shape s hN c h
    obtain ⟨_, _, _, _, _, _, _, h3, h4, _, _⟩ := encCommit_inv _ _ hy
    obtain ⟨a, ha⟩ := personOrPanic_some h3
    obtain ⟨k, hk⟩ := personOrPanic_some h4
    have htree : GitOrNil c.tree := hs.tree.elim .inr .inl
    have hout : y = withHeader b!"commit" (commitBody c a k) := by
      have : encObj (.commit c) = _ := encCommit_text c a k htree hs.parents ha hk
        (fun t ht => (hs.mergetag t ht).object)
      rw [this] at hy
      exact (Res.ok.inj hy).symm
    have uniq : ∀ a' k', c.author = some a' → c.committer = some k' → a' = a ∧ k' = k := by
      intro a' k' h1 h2
      rw [ha] at h1
      rw [hk] at h2
      cases h1
      cases h2
      exact ⟨rfl, rfl⟩
    obtain ⟨a', k', hok⟩ := (commit_survives M hM c (by
      intro a' k' h1 h2
      rw [commitHeader_eq]
      exact short_blank (by omega) (hf a' k' h1 h2)) (by
      intro a' k' h1 h2
      obtain ⟨rfl, rfl⟩ := uniq a' k' h1 h2
      rw [hout] at hlen
      exact Nat.lt_of_le_of_lt (withHeader_length _ _) hlen)).1 ⟨y, hy, h1⟩
    exact commitOk_settled hM hok (hf _ _ hok.authorIs hok.committerIs)

/-- A tag without an object. -/
def bareTag : Tag := { noTag with typ := b!"a", tag := b!"b", tagger := ⟨b!"A", b!"a", b!"1", b!"+0"⟩ }

/-- A tag without an object is read, but what is written for it is not read as the same
tag. -/
example : ∃ y, parseObject (σ := Stream) ⟨b!"tag 0\x00type a\ntag b\ntagger A <a> 1 +0\n", .eof, 4096⟩ =
      .ok (.tag bareTag) ∧ encObj (.tag bareTag) = .ok y ∧ HeadFits 4096 (.tag bareTag) ∧
    ¬ ∃ o', parseObject (σ := Stream) ⟨y, .eof, 4096⟩ = .ok o' ∧ Same o' (.tag bareTag) := by
  have hd : parseObject (σ := Stream) ⟨b!"tag 0\x00type a\ntag b\ntagger A <a> 1 +0\n", .eof, 4096⟩ =
      .ok (.tag bareTag) := by decide +kernel
  have hf : HeadFits 4096 (.tag bareTag) :=
    short_iff.2 fun l hl _ => Nat.lt_of_le_of_lt hl.length_le (by decide)
  refine ⟨_, hd, rfl, hf, fun h => ?_⟩
  exact ((settle_exact _ (by decide) _ hd 4096 (by decide) hf _ rfl (by decide)).1 h).1 rfl

end Verif.Props
