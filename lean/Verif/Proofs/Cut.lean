import Verif.Spec.Cut
import Verif.Props.Headers
import Verif.Props.Accept

/-!
# Streams that stop early: lemmas
-/

namespace Verif

open Spec Props

/-- Where a text that begins with a delimited field can be cut. -/
theorem cut_at {p q x T : Bytes} (c : UInt8) (hx : c ∉ x) (h : p ++ q = x ++ c :: T) :
    (c ∉ p ∧ p <+: x) ∨ ∃ p', p = x ++ c :: p' ∧ p' ++ q = T := by
  rcases List.append_eq_append_iff.1 h with ⟨a, h1, h2⟩ | ⟨a, h1, h2⟩
  · exact Or.inl ⟨fun hp => hx (h1 ▸ List.mem_append_left _ hp), a, h1.symm⟩
  · cases a with
    | nil => exact Or.inl ⟨by simpa [h1] using hx, by simp [h1]⟩
    | cons d a =>
      simp only [List.cons_append, List.cons.injEq] at h2
      exact Or.inr ⟨a, by rw [h1, ← h2.1], h2.2.symm⟩

/-- Where a text that begins with a line can be cut. -/
theorem cut_line {p q x T : Bytes} (hx : LF ∉ x) (h : p ++ q = x ++ LF :: T) :
    (LF ∉ p ∧ p <+: x) ∨ ∃ p', p = x ++ LF :: p' ∧ p' ++ q = T := cut_at LF hx h

/-- The first line of a text is determined by the text. -/
theorem line_split {x y T U : Bytes} (hx : LF ∉ x) (hy : LF ∉ y) (h : x ++ LF :: T = y ++ LF :: U) :
    x = y ∧ T = U := by
  rcases cut_line (p := x) (q := LF :: T) hy h with ⟨_, a, ha⟩ | ⟨p', h1, _⟩
  · rw [← ha, List.append_assoc] at h
    have h := List.append_cancel_left h
    cases a with
    | nil => simp at h; exact ⟨by simpa using ha, h⟩
    | cons c a =>
      simp only [List.cons_append, List.cons.injEq] at h
      exact absurd (ha ▸ by simp [← h.1] : LF ∈ y) hy
  · exact absurd (h1 ▸ by simp : LF ∈ x) hx

theorem line_last {N : Nat} {p : Bytes} (hne : p ≠ []) (hp : LF ∉ p) (hs : p.length < N) : Line N p p [] :=
  .last p hne hp hs

theorem line_full {N : Nat} {x T : Bytes} (hx : HeaderLine N x) : Line N (x ++ LF :: T) x T :=
  .lf x T hx.noLF hx.noCR hx.short

theorem cut_short {N : Nat} {p x : Bytes} (hx : HeaderLine N x) (h : p <+: x) : p.length < N :=
  Nat.lt_of_le_of_lt h.length_le hx.short

/-! ## Tags -/

theorem tagStep_iff (t t' : Tag) (p : Bytes) : TagStep t p t' ↔ TagCut t p t' := by
  unfold TagStep
  constructor
  · intro h
    split at h
    · rename_i hw
      obtain ⟨x, rfl⟩ := hw
      obtain ⟨y, hy, rfl⟩ := h
      exact .object x y (by simpa using hy)
    split at h
    · rename_i _ hw
      obtain ⟨x, rfl⟩ := hw
      subst h
      exact .tag x
    split at h
    · rename_i _ _ hw
      obtain ⟨y, hy, rfl⟩ := h
      exact .tagger p y hw hy
    split at h
    · rename_i _ _ _ hw
      obtain ⟨x, rfl⟩ := hw
      subst h
      exact .typ x
    · rename_i h1 h2 h3 h4
      subst h
      refine .unknown p fun w hw => ?_
      simp only [tagWords, List.mem_cons, List.not_mem_nil, or_false] at hw
      rcases hw with rfl | rfl | rfl | rfl <;> assumption
  · intro h
    cases h with
    | object x l h => rw [if_pos ⟨x, rfl⟩]; exact ⟨l, by simpa using h, rfl⟩
    | typ x =>
      have hw : b!"type " <+: b!"type " ++ x := ⟨x, rfl⟩
      rw [if_neg (prefix_excl hw (by decide) (by decide)), if_neg (prefix_excl hw (by decide) (by decide)),
        if_neg (prefix_excl hw (by decide) (by decide)), if_pos hw]
      simp
    | tag x =>
      have hw : b!"tag " <+: b!"tag " ++ x := ⟨x, rfl⟩
      rw [if_neg (prefix_excl hw (by decide) (by decide)), if_pos hw]
      simp
    | tagger _ y hw h =>
      rw [if_neg (prefix_excl hw (by decide) (by decide)), if_neg (prefix_excl hw (by decide) (by decide)),
        if_pos hw]
      exact ⟨y, h, rfl⟩
    | unknown _ h =>
      rw [if_neg (h _ (by simp [tagWords])), if_neg (h _ (by simp [tagWords])),
        if_neg (h _ (by simp [tagWords])), if_neg (h _ (by simp [tagWords]))]

theorem tagRun_cut (N : Nat) (hN : 2 ≤ N) (t t' : Tag) (p : Bytes) (hp : LF ∉ p) (hs : p.length < N) :
    tagRun t ⟨p, .eof, N⟩ = .ok t' ↔ TagCut t p t' := by
  rw [tagRun_iff _ _ _ hN rfl]
  by_cases hne : p = []
  · subst hne
    constructor
    · rintro ⟨ls, m, h, ht⟩
      cases h with
      | done =>
        have : t' = t := by
          obtain ⟨a, b, c, d, e⟩ := ht
          obtain ⟨a1, a2, a3, a4, a5⟩ := t'
          replace a := (lastValue_nil _ _ _).1 a
          replace d := (lastValue_nil _ _ _).1 d
          simp [behind, linesWith] at a b c d e
          subst a b c d e
          rfl
        rw [this]
        exact .unknown [] (by decide)
      | blank _ _ h => exact (Line_nil hN h).elim
      | line _ _ _ _ _ h => exact (Line_nil hN h).elim
    · intro h
      have : t' = t := by
        rw [← tagStep_iff] at h
        simpa [TagStep] using h
      subst this
      exact ⟨[], none, .done, (lastValue_nil _ _ _).2 rfl, rfl, rfl, (lastValue_nil _ _ _).2 rfl, rfl⟩
  have hl := line_last hne hp hs
  have hf : ∀ (o : Tag) ls m r, Head N [] ls m → (TagFrom o ls m r ↔ r = o) := by
    intro o ls m r h
    cases h with
    | done =>
      constructor
      · rintro ⟨a, b, c, d, e⟩
        obtain ⟨a1, a2, a3, a4, a5⟩ := r
        replace a := (lastValue_nil _ _ _).1 a
        replace d := (lastValue_nil _ _ _).1 d
        simp [behind, linesWith] at a b c d e
        subst a b c d e
        rfl
      · rintro rfl
        exact ⟨(lastValue_nil _ _ _).2 rfl, rfl, rfl, (lastValue_nil _ _ _).2 rfl, rfl⟩
    | blank _ _ h => exact (Line_nil hN h).elim
    | line _ _ _ _ _ h => exact (Line_nil hN h).elim
  rw [← tagStep_iff]
  constructor
  · rintro ⟨ls, m, h, ht⟩
    rcases head_cases hN hl h with ⟨h, _⟩ | ⟨_, ls', rfl, hr⟩
    · exact absurd h hne
    · obtain ⟨o', h1, h2⟩ := (tagFrom_cons _ _ _ _ _).1 ht
      rw [(hf _ _ _ _ hr).1 h2]
      exact h1
  · intro h
    exact ⟨[p], none, .line _ p [] [] none hl hne .done, (tagFrom_cons _ _ _ _ _).2 ⟨t', h, (hf _ _ _ _ .done).2 rfl⟩⟩

/-! ## Single lines of commits -/

theorem lineStep_iff (c c' : Commit) (p : Bytes) (hm : ¬ b!"mergetag object " <+: p)
    (hg : ¬ b!"gpgsig " <+: p) : LineStep c p c' ↔ LineCut c p c' := by
  unfold LineStep
  constructor
  · intro h
    split at h
    · rename_i hw
      obtain ⟨x, rfl⟩ := hw
      obtain ⟨y, hy, rfl⟩ := h
      exact .tree x y (by simpa using hy)
    split at h
    · rename_i _ hw
      obtain ⟨x, rfl⟩ := hw
      obtain ⟨y, hy, rfl⟩ := h
      exact .parent x y (by simpa using hy)
    split at h
    · rename_i _ _ hw
      obtain ⟨y, hy, rfl⟩ := h
      exact .author p y hw hy
    split at h
    · rename_i _ _ _ hw
      obtain ⟨y, hy, rfl⟩ := h
      exact .committer p y hw hy
    split at h
    · rename_i _ _ _ _ hw
      obtain ⟨x, rfl⟩ := hw
      subst h
      exact .encoding x
    · rename_i h1 h2 h3 h4 h5
      subst h
      refine .other p fun w hw => ?_
      simp only [knownHeaders, List.mem_cons, List.not_mem_nil, or_false] at hw
      rcases hw with rfl | rfl | rfl | rfl | rfl | rfl | rfl <;> assumption
  · intro h
    cases h with
    | tree x l h => rw [if_pos ⟨x, rfl⟩]; exact ⟨l, by simpa using h, rfl⟩
    | parent x l h =>
      have hw : b!"parent " <+: b!"parent " ++ x := ⟨x, rfl⟩
      rw [if_neg (prefix_excl hw (by decide) (by decide)), if_pos hw]
      exact ⟨l, by simpa using h, rfl⟩
    | author _ y hw h =>
      rw [if_neg (prefix_excl hw (by decide) (by decide)), if_neg (prefix_excl hw (by decide) (by decide)),
        if_pos hw]
      exact ⟨y, h, rfl⟩
    | committer _ y hw h =>
      rw [if_neg (prefix_excl hw (by decide) (by decide)), if_neg (prefix_excl hw (by decide) (by decide)),
        if_neg (prefix_excl hw (by decide) (by decide)), if_pos hw]
      exact ⟨y, h, rfl⟩
    | encoding x =>
      have hw : b!"encoding " <+: b!"encoding " ++ x := ⟨x, rfl⟩
      rw [if_neg (prefix_excl hw (by decide) (by decide)), if_neg (prefix_excl hw (by decide) (by decide)),
        if_neg (prefix_excl hw (by decide) (by decide)), if_neg (prefix_excl hw (by decide) (by decide)),
        if_pos hw]
      simp
    | mergetag x l h => exact absurd ⟨x, rfl⟩ hm
    | other _ h =>
      rw [if_neg (h _ (by simp [knownHeaders])), if_neg (h _ (by simp [knownHeaders])),
        if_neg (h _ (by simp [knownHeaders])), if_neg (h _ (by simp [knownHeaders])),
        if_neg (h _ (by simp [knownHeaders]))]

theorem mergeMeans_object (x : Bytes) (t : Tag) :
    MergeMeans (x, [], none) t ↔ ∃ l, RefLink x l ∧ t = { noTag with object := l } := by
  constructor
  · rintro ⟨a, b, c, d, e⟩
    obtain ⟨t1, t2, t3, t4, t5⟩ := t
    simp only [linesWith, List.filter_nil, List.map_nil] at d
    replace d := (lastValue_nil _ _ _).1 d
    simp [behind, linesWith] at a b c d e
    subst b c d e
    exact ⟨t1, a, rfl⟩
  · rintro ⟨l, h, rfl⟩
    exact ⟨h, rfl, rfl, (lastValue_nil _ _ _).2 rfl, rfl⟩

theorem lineCut_gpg {c c' : Commit} {p : Bytes} (hg : b!"gpgsig " <+: p) : ¬ LineCut c p c' := by
  intro h
  cases h with
  | tree x l h => exact prefix_excl ⟨x, rfl⟩ (by decide) (by decide) hg
  | parent x l h => exact prefix_excl ⟨x, rfl⟩ (by decide) (by decide) hg
  | author _ y hw h => exact prefix_excl hw (by decide) (by decide) hg
  | committer _ y hw h => exact prefix_excl hw (by decide) (by decide) hg
  | encoding x => exact prefix_excl ⟨x, rfl⟩ (by decide) (by decide) hg
  | mergetag x l h => exact prefix_excl ⟨x, rfl⟩ (by decide) (by decide) hg
  | other _ h => exact h _ (by simp [knownHeaders]) hg

theorem lineCut_merge {c c' : Commit} {x : Bytes} :
    LineCut c (b!"mergetag object " ++ x) c' ↔
      ∃ l, RefLink x l ∧ c' = { c with mergetag := c.mergetag ++ [{ noTag with object := l }] } := by
  have hm : b!"mergetag object " <+: b!"mergetag object " ++ x := ⟨x, rfl⟩
  constructor
  · intro h
    generalize hp : b!"mergetag object " ++ x = p at h
    rw [hp] at hm
    cases h with
    | tree x l h => exact absurd hm (prefix_excl ⟨x, rfl⟩ (by decide) (by decide))
    | parent x l h => exact absurd hm (prefix_excl ⟨x, rfl⟩ (by decide) (by decide))
    | author _ y hw h => exact absurd hm (prefix_excl hw (by decide) (by decide))
    | committer _ y hw h => exact absurd hm (prefix_excl hw (by decide) (by decide))
    | encoding x => exact absurd hm (prefix_excl ⟨x, rfl⟩ (by decide) (by decide))
    | mergetag y l h =>
      rw [List.append_cancel_left hp]
      exact ⟨l, h, rfl⟩
    | other _ h => exact absurd hm (h _ (by simp [knownHeaders]))
  · rintro ⟨l, h, rfl⟩
    exact .mergetag x l h

theorem blocks_nil {N : Nat} (hN : 2 ≤ N) {bs : List Block} {m : Option Bytes} (h : Blocks N [] bs m) :
    bs = [] ∧ m = none := by
  cases h with
  | done => exact ⟨rfl, rfl⟩
  | blank _ _ h => exact (Line_nil hN h).elim
  | line _ _ _ _ _ h => exact (Line_nil hN h).elim
  | sig _ _ _ _ _ _ _ h => exact (Line_nil hN h).elim
  | merge _ _ _ _ _ _ _ _ _ h => exact (Line_nil hN h).elim
  | cut _ _ _ _ h => exact (Line_nil hN h).elim

theorem sigBody_nil {N : Nat} (hN : 2 ≤ N) {ls : List Bytes} {r : Bytes} : ¬ SigBody N [] ls r := by
  intro h
  cases h with
  | stop _ _ h1 => exact Line_nil hN h1
  | more _ _ _ _ _ h1 => exact Line_nil hN h1

theorem mergeHead_nil {N : Nat} (hN : 2 ≤ N) {ls : List Bytes} {r : Bytes} : ¬ MergeHead N [] ls r := by
  intro h
  cases h with
  | stop _ _ h1 => exact Line_nil hN h1
  | more _ _ _ _ _ h1 => exact Line_nil hN h1

theorem mergeCut_nil {N : Nat} (hN : 2 ≤ N) {ls : List Bytes} (h : MergeCut N [] ls) : ls = [] := by
  cases h with
  | stop => rfl
  | more _ _ _ _ h1 => exact (Line_nil hN h1).elim

theorem commitRun_cutLine (N : Nat) (hN : 2 ≤ N) (c c' : Commit) (p : Bytes) (hne : p ≠ []) (hp : LF ∉ p)
    (hs : p.length < N) : commitRun c ⟨p, .eof, N⟩ = .ok c' ↔ LineCut c p c' := by
  rw [commitRun_iff _ _ _ _ _ (Nat.lt_succ_self _) hN]
  have hl := line_last hne hp hs
  constructor
  · rintro ⟨bs, m, h, ht⟩
    rcases blocks_cases hN hl h with ⟨h, _⟩ | ⟨_, hm, hg, bs', rfl, hr⟩ | ⟨_, ls, r', bs', rfl, hb, _⟩ |
      ⟨x, ls, msg, bs', r1, r2, rfl, rfl, hh, _⟩ | ⟨x, ls, rfl, rfl, rfl, hc⟩
    · exact absurd h hne
    · obtain ⟨rfl, rfl⟩ := blocks_nil hN hr
      obtain ⟨c1, h1, h2⟩ := (commitFrom_line _ _ _ _ _ hm hg).1 ht
      rw [(commitFrom_nil _ _ _).1 h2]
      exact (lineStep_iff _ _ _ hm hg).1 h1
    · exact (sigBody_nil hN hb).elim
    · exact (mergeHead_nil hN hh).elim
    · obtain rfl := mergeCut_nil hN hc
      obtain ⟨t, h1, h2⟩ := (commitFrom_merge _ _ _ _ _ _ _).1 ht
      rw [(commitFrom_nil _ _ _).1 h2]
      obtain ⟨l, hl, rfl⟩ := (mergeMeans_object _ _).1 h1
      exact .mergetag x l hl
  · intro h
    by_cases hg : b!"gpgsig " <+: p
    · exact absurd h (lineCut_gpg hg)
    by_cases hm : b!"mergetag object " <+: p
    · obtain ⟨x, rfl⟩ := hm
      obtain ⟨l, hx, rfl⟩ := lineCut_merge.1 h
      exact ⟨_, none, .cut _ x [] [] hl .stop, (commitFrom_merge _ _ _ _ _ _ _).2
        ⟨_, (mergeMeans_object _ _).2 ⟨l, hx, rfl⟩, (commitFrom_nil _ _ _).2 rfl⟩⟩
    · exact ⟨_, none, .line _ p [] [] none hl hne hm hg .done, (commitFrom_line _ _ _ _ _ hm hg).2
        ⟨c', (lineStep_iff _ _ _ hm hg).2 h, (commitFrom_nil _ _ _).2 rfl⟩⟩

/-! ## Signatures -/

theorem sigBody_cutLine {N : Nat} (hN : 2 ≤ N) (hE : HeaderLine N sigEnd) (p : Bytes) (hp : LF ∉ p)
    (hs : p.length < N) (ls : List Bytes) (r : Bytes) :
    SigBody N p ls r ↔ (∀ l ∈ ls, LF ∉ l) ∧ p = unlines ls ++ sigEnd ∧ r = [] := by
  constructor
  · intro hb
    by_cases hne : p = []
    · subst hne
      exact (sigBody_nil hN hb).elim
    have hl := line_last hne hp hs
    cases hb with
    | stop _ _ h =>
      obtain ⟨rfl, rfl⟩ := Line_unique hN hl h
      exact ⟨by simp, by simp, rfl⟩
    | more _ _ _ _ _ h _ hr =>
      obtain ⟨rfl, rfl⟩ := Line_unique hN hl h
      exact (sigBody_nil hN hr).elim
  · rintro ⟨hl, rfl, rfl⟩
    cases ls with
    | nil => exact .stop _ _ (line_last (by decide) (by decide) hE.short)
    | cons y ys => exact absurd (by simp [unlines]) hp

theorem sigBody_cut {N : Nat} (hN : 2 ≤ N) (hE : HeaderLine N sigEnd) (L : List Bytes)
    (hL : ∀ x ∈ L, HeaderLine N x ∧ x ≠ sigEnd) (p q : Bytes) (hq : q ≠ [])
    (h : p ++ q = unlines L ++ (sigEnd ++ [LF])) (ls : List Bytes) (r : Bytes) :
    SigBody N p ls r ↔ (∀ l ∈ ls, LF ∉ l) ∧ p = unlines ls ++ sigEnd ∧ r = [] := by
  induction L generalizing p ls with
  | nil =>
    rcases cut_line (T := []) (x := sigEnd) (by decide) (by simpa using h) with ⟨hp, hpx⟩ | ⟨p', _, h2⟩
    · exact sigBody_cutLine hN hE p hp (cut_short hE hpx) ls r
    · exact absurd (List.append_eq_nil_iff.1 h2).2 hq
  | cons x L ih =>
    have hx := hL x (by simp)
    rw [unlines_cons] at h
    rcases cut_line hx.1.noLF h with ⟨hp, hpx⟩ | ⟨p', rfl, h2⟩
    · exact sigBody_cutLine hN hE p hp (cut_short hx.1 hpx) ls r
    · have hl := line_full (T := p') hx.1
      have ih := ih (fun y hy => hL y (by simp [hy])) p' h2
      constructor
      · intro hb
        cases hb with
        | stop _ _ h => exact absurd (Line_unique hN hl h).1 hx.2
        | more _ y r1 _ ls' h _ hr =>
          obtain ⟨rfl, rfl⟩ := Line_unique hN hl h
          obtain ⟨h3, rfl, h5⟩ := (ih ls').1 hr
          refine ⟨?_, by rw [unlines_cons], h5⟩
          intro l hl
          rcases List.mem_cons.1 hl with rfl | hl
          · exact hx.1.noLF
          · exact h3 l hl
      · rintro ⟨hls, hp, rfl⟩
        cases ls with
        | nil => 
          simp only [unlines_nil, List.nil_append] at hp
          exact absurd (hp ▸ (by simp : LF ∈ x ++ LF :: p') : LF ∈ sigEnd) (by decide)
        | cons y ys =>
          rw [unlines_cons] at hp
          obtain ⟨rfl, rfl⟩ := line_split hx.1.noLF (hls y (by simp)) hp
          exact .more _ _ _ _ _ hl hx.2 ((ih ys).2 ⟨fun l hl => hls l (by simp [hl]), rfl, rfl⟩)

/-! ## Merge tags -/

/-- A line that can stand inside a merge tag. -/
def SpLine (N : Nat) (x : Bytes) : Prop := HeaderLine N x ∧ x.head? = some SP

theorem cut_head {p x : Bytes} (hne : p ≠ []) (h : p <+: x) (hx : x.head? = some SP) : p.head? = some SP := by
  obtain ⟨q, rfl⟩ := h
  cases p with
  | nil => exact absurd rfl hne
  | cons c p => simpa using hx

/-- The message of a merge tag needs a line after it. -/
theorem mergeMsg_cut {N : Nat} (hN : 2 ≤ N) (K : List Bytes) (hK : ∀ x ∈ K, SpLine N x) (p q : Bytes)
    (h : p ++ q = unlines K) (msg : List Bytes) (r : Bytes) : ¬ MergeMsg N p msg r := by
  have hnil : ∀ msg, ¬ MergeMsg N [] msg r := by
    intro msg h
    cases h with
    | stop _ _ _ h1 => exact Line_nil hN h1
    | more _ _ _ _ _ h1 => exact Line_nil hN h1
  induction K generalizing p msg with
  | nil =>
    have : p = [] := (List.append_eq_nil_iff.1 (by simpa using h)).1
    exact this ▸ hnil msg
  | cons x K ih =>
    have hx := hK x (by simp)
    have hu := unlines_cons x K []
    simp only [List.append_nil] at hu
    rw [hu] at h
    intro hm
    rcases cut_line hx.1.noLF h with ⟨hp, hpx⟩ | ⟨p', rfl, h2⟩
    · by_cases hne : p = []
      · subst hne; exact hnil msg hm
      have hl := line_last hne hp (cut_short hx.1 hpx)
      cases hm with
      | stop _ _ _ h1 hsp =>
        obtain ⟨rfl, rfl⟩ := Line_unique hN hl h1
        exact hsp (cut_head hne hpx hx.2)
      | more _ _ _ _ _ h1 _ hr =>
        obtain ⟨rfl, rfl⟩ := Line_unique hN hl h1
        exact hnil _ hr
    · have hl := line_full (T := p') hx.1
      cases hm with
      | stop _ _ _ h1 hsp =>
        obtain ⟨rfl, rfl⟩ := Line_unique hN hl h1
        exact hsp hx.2
      | more _ _ _ _ _ h1 _ hr =>
        obtain ⟨rfl, rfl⟩ := Line_unique hN hl h1
        exact ih (fun y hy => hK y (by simp [hy])) p' h2 _ hr

theorem mergeHead_cut {N : Nat} (hN : 2 ≤ N) (K : List Bytes) (hK : ∀ x ∈ K, SpLine N x) (p q : Bytes)
    (h : p ++ q = unlines K) (ls : List Bytes) (r : Bytes) (hh : MergeHead N p ls r) (msg : List Bytes)
    (r' : Bytes) : ¬ MergeMsg N r msg r' := by
  induction K generalizing p ls with
  | nil =>
    have : p = [] := (List.append_eq_nil_iff.1 (by simpa using h)).1
    exact absurd (this ▸ hh) (mergeHead_nil hN)
  | cons x K ih =>
    have hx := hK x (by simp)
    have hu := unlines_cons x K []
    simp only [List.append_nil] at hu
    rw [hu] at h
    have hK' : ∀ y ∈ K, SpLine N y := fun y hy => hK y (by simp [hy])
    rcases cut_line hx.1.noLF h with ⟨hp, hpx⟩ | ⟨p', rfl, h2⟩
    · by_cases hne : p = []
      · subst hne; exact (mergeHead_nil hN hh).elim
      have hl := line_last hne hp (cut_short hx.1 hpx)
      cases hh with
      | stop _ _ h1 =>
        obtain ⟨_, rfl⟩ := Line_unique hN hl h1
        exact mergeMsg_cut hN [] (by simp) [] [] (by simp) _ _
      | more _ _ _ _ _ h1 _ hr =>
        obtain ⟨rfl, rfl⟩ := Line_unique hN hl h1
        exact (mergeHead_nil hN hr).elim
    · have hl := line_full (T := p') hx.1
      cases hh with
      | stop _ _ h1 =>
        obtain ⟨_, rfl⟩ := Line_unique hN hl h1
        exact mergeMsg_cut hN K hK' _ q h2 _ _
      | more _ _ _ _ _ h1 _ hr =>
        obtain ⟨rfl, rfl⟩ := Line_unique hN hl h1
        exact ih hK' p' h2 _ hr

/-- The header lines that are there. -/
def CutLines (p : Bytes) (ls : List Bytes) : Prop :=
  ∃ ls0 last, (∀ l ∈ last :: ls0, LF ∉ l ∧ l ≠ b!" ") ∧ p = unlines ls0 ++ last ∧
    ls = ls0 ++ (if last = [] then [] else [last])

theorem mergeCut_cut {N : Nat} (hN : 2 ≤ N) (K : List Bytes) (hK : ∀ x ∈ K, SpLine N x) (p q : Bytes)
    (h : p ++ q = unlines K) (ls : List Bytes) : MergeCut N p ls ↔ CutLines p ls := by
  have hnil : ∀ ls, MergeCut N [] ls ↔ CutLines [] ls := by
    intro ls
    constructor
    · intro h
      obtain rfl := mergeCut_nil hN h
      exact ⟨[], [], by simp, rfl, rfl⟩
    · rintro ⟨ls0, last, _, hp, rfl⟩
      obtain ⟨h1, rfl⟩ := List.append_eq_nil_iff.1 hp.symm
      cases ls0 with
      | nil => exact .stop
      | cons y ys => simp [unlines] at h1
  induction K generalizing p ls with
  | nil =>
    have : p = [] := (List.append_eq_nil_iff.1 (by simpa using h)).1
    exact this ▸ hnil ls
  | cons x K ih =>
    have hx := hK x (by simp)
    have hu := unlines_cons x K []
    simp only [List.append_nil] at hu
    rw [hu] at h
    have hK' : ∀ y ∈ K, SpLine N y := fun y hy => hK y (by simp [hy])
    rcases cut_line hx.1.noLF h with ⟨hp, hpx⟩ | ⟨p', rfl, h2⟩
    · by_cases hne : p = []
      · subst hne; exact hnil ls
      have hl := line_last hne hp (cut_short hx.1 hpx)
      constructor
      · intro hc
        cases hc with
        | stop => exact absurd rfl hne
        | more _ _ _ _ h1 hsp hr =>
          obtain ⟨rfl, rfl⟩ := Line_unique hN hl h1
          obtain rfl := mergeCut_nil hN hr
          exact ⟨[], p, by simpa using ⟨hp, hsp⟩, by simp, by simp [hne]⟩
      · rintro ⟨ls0, last, hl0, rfl, rfl⟩
        cases ls0 with
        | nil =>
          simp only [unlines_nil, List.nil_append] at hne hl ⊢
          rw [if_neg hne]
          exact .more _ _ _ _ hl (hl0 last (by simp)).2 .stop
        | cons y ys => exact absurd (by simp [unlines]) hp
    · have hl := line_full (T := p') hx.1
      have ih := ih hK' p' h2
      constructor
      · intro hc
        generalize hb : x ++ LF :: p' = b at hc hl
        cases hc with
        | stop => simp at hb
        | more _ _ _ ls' h1 hsp hr =>
          obtain ⟨rfl, rfl⟩ := Line_unique hN hl h1
          obtain ⟨ls0, last, h3, rfl, rfl⟩ := (ih _).1 hr
          refine ⟨x :: ls0, last, ?_, by rw [unlines_cons, hb], by simp⟩
          intro l hl
          simp only [List.mem_cons] at hl
          rcases hl with rfl | rfl | hl
          · exact h3 l (by simp)
          · exact ⟨hx.1.noLF, hsp⟩
          · exact h3 l (by simp [hl])
      · rintro ⟨ls0, last, hl0, hp, rfl⟩
        cases ls0 with
        | nil => 
          simp only [unlines_nil, List.nil_append] at hp
          exact absurd (hp ▸ (by simp : LF ∈ x ++ LF :: p') : LF ∈ last) (hl0 last (by simp)).1
        | cons y ys =>
          rw [unlines_cons] at hp
          obtain ⟨rfl, rfl⟩ := line_split hx.1.noLF (hl0 y (by simp)).1 hp
          refine .more _ _ _ _ hl (hl0 x (by simp)).2 ((ih _).2 ⟨ys, last, ?_, rfl, rfl⟩)
          intro l hl
          simp only [List.mem_cons] at hl
          rcases hl with rfl | hl
          · exact hl0 l (by simp)
          · exact hl0 l (by simp [hl])

/-! ## Any item of a commit -/

theorem commitRun_cutSig (N : Nat) (hN : 4096 ≤ N) (c c' : Commit) (g p q : Bytes) (hg : SigOk N g)
    (hq : q ≠ []) (h : p ++ q = g ++ unlines [sigEnd]) :
    commitRun c ⟨sigBegin ++ LF :: p, .eof, N⟩ = .ok c' ↔
      ∃ ls, ls ≠ [] ∧ (∀ l ∈ ls, LF ∉ l) ∧ p = unlines ls ++ sigEnd ∧
        c' = { c with signature := some (unlines ls) } := by
  have hN2 : 2 ≤ N := by omega
  have hE : HeaderLine N sigEnd := ⟨by decide, by decide, by simp [sigEnd]; omega⟩
  have hB : HeaderLine N sigBegin := ⟨by decide, by decide, by simp [sigBegin]; omega⟩
  obtain ⟨l0, L, rfl, hLH, hLE, hl0⟩ := hg
  have hL : ∀ x ∈ l0 :: L, HeaderLine N x ∧ x ≠ sigEnd := by
    intro x hx
    refine ⟨hLH x hx, ?_⟩
    rcases List.mem_cons.1 hx with rfl | hx
    · rintro rfl
      revert hl0
      decide
    · exact hLE x hx
  have hb := sigBody_cut hN2 hE (l0 :: L) hL p q hq (by simpa [unlines] using h)
  have hl := line_full (T := p) hB
  have hpre : b!"gpgsig " <+: sigBegin := by decide
  have hmp : ¬ b!"mergetag object " <+: sigBegin := by decide
  rw [commitRun_iff _ _ _ _ _ (Nat.lt_succ_self _) hN2]
  constructor
  · rintro ⟨bs, m, h1, h2⟩
    rcases blocks_cases hN2 hl h1 with ⟨h, _⟩ | ⟨_, _, h, _⟩ | ⟨_, ls, r', bs', rfl, hs, hr⟩ |
      ⟨x, _, _, _, _, _, h, _⟩ | ⟨x, _, h, _⟩
    · exact absurd h (by decide)
    · exact absurd hpre h
    · obtain ⟨h3, rfl, rfl⟩ := (hb _ _).1 hs
      obtain ⟨rfl, rfl⟩ := blocks_nil hN2 hr
      obtain ⟨h4, h5⟩ := (commitFrom_sig _ _ _ _ _).1 h2
      refine ⟨ls, ?_, h3, rfl, (commitFrom_nil _ _ _).1 h5⟩
      rintro rfl
      obtain ⟨l, hl, _⟩ := h4
      simp at hl
    · exact absurd ⟨x, h.symm⟩ hmp
    · exact absurd ⟨x, h.symm⟩ hmp
  · rintro ⟨ls, hne, hls, hp, rfl⟩
    refine ⟨[.sig ls], none, .sig _ _ _ [] _ _ _ hl hpre ((hb _ _).2 ⟨hls, hp, rfl⟩) .done,
      (commitFrom_sig _ _ _ _ _).2 ⟨?_, (commitFrom_nil _ _ _).2 rfl⟩⟩
    cases ls with
    | nil => exact absurd rfl hne
    | cons y ys =>
      refine ⟨y, rfl, ?_⟩
      have h' : (y ++ LF :: (unlines ys ++ sigEnd)) ++ q = l0 ++ LF :: (unlines L ++ unlines [sigEnd]) := by
        rw [← unlines_cons, ← unlines_cons, ← hp, h]
      obtain ⟨rfl, _⟩ := line_split (hls y (by simp)) (hL l0 (by simp)).1.noLF (by simpa using h')
      exact hl0

theorem commitRun_cutMerge (N : Nat) (hN : 4096 ≤ N) (c c' : Commit) (x p q : Bytes)
    (hx : HeaderLine N (b!"mergetag object " ++ x)) (K : List Bytes) (hK : ∀ l ∈ K, SpLine N l)
    (h : p ++ q = unlines K) :
    commitRun c ⟨(b!"mergetag object " ++ x) ++ LF :: p, .eof, N⟩ = .ok c' ↔
      ∃ ls t, CutLines p ls ∧ MergeMeans (x, ls, none) t ∧ c' = { c with mergetag := c.mergetag ++ [t] } := by
  have hN2 : 2 ≤ N := by omega
  have hl := line_full (T := p) hx
  have hm : b!"mergetag object " <+: b!"mergetag object " ++ x := ⟨x, rfl⟩
  rw [commitRun_iff _ _ _ _ _ (Nat.lt_succ_self _) hN2]
  constructor
  · rintro ⟨bs, m, h1, h2⟩
    rcases blocks_cases hN2 hl h1 with ⟨h, _⟩ | ⟨_, h, _⟩ | ⟨h, _⟩ |
      ⟨y, ls, msg, bs', r1, r2, h3, rfl, hh, hmsg, _⟩ | ⟨y, ls, h3, rfl, rfl, hc⟩
    · simp at h
    · exact absurd hm h
    · exact absurd h (prefix_excl hm (by decide) (by decide))
    · exact absurd hmsg (mergeHead_cut hN2 K hK p q h ls r1 hh msg r2)
    · obtain rfl := List.append_cancel_left h3
      obtain ⟨t, h4, h5⟩ := (commitFrom_merge _ _ _ _ _ _ _).1 h2
      exact ⟨ls, t, (mergeCut_cut hN2 K hK p q h ls).1 hc, h4, (commitFrom_nil _ _ _).1 h5⟩
  · rintro ⟨ls, t, h1, h2, rfl⟩
    exact ⟨_, none, .cut _ x p ls hl ((mergeCut_cut hN2 K hK p q h ls).2 h1),
      (commitFrom_merge _ _ _ _ _ _ _).2 ⟨t, h2, (commitFrom_nil _ _ _).2 rfl⟩⟩

theorem commitCut_noLF {c c' : Commit} {p : Bytes} (hp : LF ∉ p) : CommitCut c p c' ↔ LineCut c p c' := by
  constructor
  · intro h
    cases h with
    | line _ _ h => exact h
    | sig ls _ _ h => exact absurd (h ▸ by simp [unlines]) hp
    | merge x ls last t _ _ h => exact absurd (h ▸ by simp [unlines]) hp
  · exact fun h => .line _ hp h

theorem commitRun_cutItem (N : Nat) (hN : 4096 ≤ N) (c c' : Commit) (i : Item) (hi : i.Ok N) (p q : Bytes)
    (hne : p ≠ []) (hq : q ≠ []) (h : p ++ q = i.text) :
    commitRun c ⟨p, .eof, N⟩ = .ok c' ↔ CommitCut c p c' := by
  have hN2 : 2 ≤ N := by omega
  have hcut : ∀ l : Bytes, HeaderLine N l → LF ∉ p → p <+: l →
      (commitRun c ⟨p, .eof, N⟩ = .ok c' ↔ CommitCut c p c') := by
    intro l hl hp hpl
    rw [commitRun_cutLine N hN2 c c' p hne hp (cut_short hl hpl), commitCut_noLF hp]
  have hone : ∀ l : Bytes, HeaderLine N l → p ++ q = unlines [l] →
      (commitRun c ⟨p, .eof, N⟩ = .ok c' ↔ CommitCut c p c') := by
    intro l hl h
    rcases cut_line (x := l) (T := []) hl.noLF (by simpa [unlines] using h) with ⟨hp, hpl⟩ | ⟨p', _, h2⟩
    · exact hcut l hl hp hpl
    · exact absurd (List.append_eq_nil_iff.1 h2).2 hq
  have hms : ∀ x : Bytes, b!"mergetag object " ++ x ≠ sigBegin := by
    intro x h
    have hmp : ¬ b!"mergetag object " <+: sigBegin := by decide
    exact hmp ⟨x, h⟩
  cases i with
  | tree x sha => exact hone _ (headerLine_ref N _ _ _ (by decide) hi (by simp; omega)) h
  | parent x sha => exact hone _ (headerLine_ref N _ _ _ (by decide) hi (by simp; omega)) h
  | author y => exact hone _ hi.2 h
  | committer y => exact hone _ hi.2 h
  | encoding x => exact hone _ hi h
  | other l => exact hone _ hi.line h
  | sig g =>
    have hB : HeaderLine N sigBegin := ⟨by decide, by decide, by simp [sigBegin]; omega⟩
    have ht : p ++ q = sigBegin ++ LF :: (g ++ unlines [sigEnd]) := by
      rw [h]; simp [Item.text, unlines]
    rcases cut_line hB.noLF ht with ⟨hp, hpl⟩ | ⟨p', rfl, h2⟩
    · exact hcut _ hB hp hpl
    · rw [commitRun_cutSig N hN c c' g p' q hi hq h2]
      constructor
      · rintro ⟨ls, h3, h4, rfl, rfl⟩
        exact .sig ls h3 h4 (by rw [unlines_cons])
      · intro hc
        cases hc with
        | line _ hp _ => exact absurd (by simp) hp
        | sig ls h3 h4 h5 =>
          rw [unlines_cons] at h5
          exact ⟨ls, h3, h4, (line_split hB.noLF hB.noLF h5).2, rfl⟩
        | merge x ls last t h3 _ h5 =>
          rw [unlines_cons] at h5
          have hx : LF ∉ b!"mergetag object " ++ x := by
            have := h3 x (by simp)
            simp only [List.mem_append, not_or]
            exact ⟨by decide, this⟩
          exact absurd (line_split hB.noLF hx h5).1.symm (hms x)
  | mergetag x t =>
    obtain ⟨hx, ht⟩ := hi
    have hl : HeaderLine N (b!"mergetag object " ++ x) := headerLine_ref N _ _ _ (by decide) hx (by simp; omega)
    obtain ⟨ms, hm, hms'⟩ := ht.message
    let K := [b!" type " ++ t.typ, b!" tag " ++ t.tag, b!" tagger " ++ personText t.tagger, b!" "] ++ ms
    have hK : ∀ l ∈ K, SpLine N l := by
      intro l hl
      simp only [K, List.mem_append, List.mem_cons, List.not_mem_nil, or_false] at hl
      rcases hl with (rfl | rfl | rfl | rfl) | hl
      · exact ⟨ht.typ, by simp⟩
      · exact ⟨ht.tag, by simp⟩
      · exact ⟨ht.taggerLine, by simp⟩
      · exact ⟨headerLine_mk (by decide) hN, by decide⟩
      · exact ⟨(hms' l hl).2, (hms' l hl).1⟩
    have htx : p ++ q = (b!"mergetag object " ++ x) ++ LF :: unlines K := by
      rw [h]; simp [Item.text, unlines, mergeTagBlock, hm, K]
    rcases cut_line hl.noLF htx with ⟨hp, hpl⟩ | ⟨p', rfl, h2⟩
    · exact hcut _ hl hp hpl
    · rw [commitRun_cutMerge N hN c c' x p' q hl K hK h2]
      constructor
      · rintro ⟨ls, u, ⟨ls0, last, h3, rfl, rfl⟩, h4, rfl⟩
        refine .merge x ls0 last u ?_ (fun l hl => (h3 l hl).2) (by rw [unlines_cons]) h4
        intro l hl'
        rcases List.mem_cons.1 hl' with rfl | hl'
        · intro hlf; exact hl.noLF (List.mem_append_right _ hlf)
        · exact (h3 l hl').1
      · intro hc
        cases hc with
        | line _ hp _ => exact absurd (by simp) hp
        | sig ls h3 h4 h5 =>
          rw [unlines_cons] at h5
          exact absurd (line_split hl.noLF (by decide) h5).1 (hms x)
        | merge y ls last u h3 h3' h5 h6 =>
          rw [unlines_cons] at h5
          have hy : LF ∉ b!"mergetag object " ++ y := by
            have := h3 y (by simp)
            simp only [List.mem_append, not_or]
            exact ⟨by decide, this⟩
          obtain ⟨h7, h8⟩ := line_split hl.noLF hy h5
          obtain rfl := List.append_cancel_left h7
          exact ⟨_, u, ⟨ls, last, fun l hl => ⟨h3 l (by simp at hl ⊢; exact Or.inr hl), h3' l hl⟩, h8, rfl⟩, h6, rfl⟩

/-! ## Whole streams -/

theorem itemsOk_left {N : Nat} {a b : List Item} (h : ItemsOk N (a ++ b)) : ItemsOk N a := by
  induction a with
  | nil => trivial
  | cons i a ih =>
    refine ⟨h.1, fun x t l hi hl => h.2.1 x t l hi ?_, ih h.2.2⟩
    cases a with
    | nil => simp at hl
    | cons j a => simpa using hl

theorem itemsOk_at {N : Nat} {a b : List Item} {i : Item} (h : ItemsOk N (a ++ i :: b)) :
    i.Ok N ∧ ((∃ x t, a.getLast? = some (.mergetag x t)) → ∀ l, i = .other l → l.head? ≠ some SP) := by
  induction a with
  | nil => exact ⟨h.1, by simp⟩
  | cons j a ih =>
    obtain ⟨h1, h2⟩ := ih h.2.2
    refine ⟨h1, ?_⟩
    rintro ⟨x, t, hl⟩ l rfl
    cases a with
    | nil =>
      simp only [List.getLast?_singleton, Option.some.injEq] at hl
      exact h.2.1 x t l hl (by simp)
    | cons k a =>
      rw [List.getLast?_cons_cons] at hl
      exact h2 ⟨x, t, hl⟩ l rfl

theorem item_head {N : Nat} {i : Item} (hi : i.Ok N) (hsp : ∀ l, i = .other l → l.head? ≠ some SP) :
    i.text.head? ≠ some SP := by
  cases i with
  | other l =>
    have := hi.nonempty
    cases l with
    | nil => exact absurd rfl this
    | cons c l => simpa [Item.text, unlines] using hsp _ rfl
  | tree x sha => simp [Item.text, unlines]; decide
  | parent x sha => simp [Item.text, unlines]; decide
  | author y => simp [Item.text, unlines]; decide
  | committer y => simp [Item.text, unlines]; decide
  | encoding x => simp [Item.text, unlines]; decide
  | mergetag x t => simp [Item.text, unlines, mergeTagBlock]; decide
  | sig g => simp [Item.text, unlines, sigBegin]; decide

theorem startsOk_head (N : Nat) (p : Bytes) (hne : p ≠ []) (h : p.head? ≠ some SP) : StartsOk N .eof p := by
  cases hr : Stream.readLine ⟨p, .eof, N⟩ with
  | err e => exact absurd ((Stream.readLine_err _ _).1 hr).1 hne
  | panic => exact absurd hr (Stream.readLine_ne_panic _)
  | ok q =>
    obtain ⟨l, s'⟩ := q
    refine ⟨l, s', hr, ?_⟩
    obtain ⟨r, hr⟩ := readLine_prefix _ _ _ hr
    cases l with
    | nil => simp
    | cons c l =>
      simp only at hr
      rw [← hr] at h
      simpa using h

/-- Where the header of a commit can be cut. -/
theorem items_cut (is : List Item) (msg B : Bytes) (h : B <+: itemsText is ++ LF :: msg) :
    (∃ m, B = itemsText is ++ LF :: m) ∨ (∃ pre post, is = pre ++ post ∧ B = itemsText pre) ∨
    (∃ pre i post p q, is = pre ++ i :: post ∧ i.text = p ++ q ∧ p ≠ [] ∧ q ≠ [] ∧ B = itemsText pre ++ p) := by
  obtain ⟨q, h⟩ := h
  induction is generalizing B with
  | nil =>
    rcases cut_line (x := []) (T := msg) (by simp) (by simpa [itemsText] using h) with ⟨_, h1⟩ | ⟨p', h1, _⟩
    · exact Or.inr (Or.inl ⟨[], [], rfl, by simpa [itemsText] using h1⟩)
    · exact Or.inl ⟨p', by simpa [itemsText] using h1⟩
  | cons i is ih =>
    have hh : B ++ q = i.text ++ (itemsText is ++ LF :: msg) := by rw [h]; simp [itemsText]
    rcases List.append_eq_append_iff.1 hh with ⟨a, h1, h2⟩ | ⟨a, h1, h2⟩
    · by_cases hB : B = []
      · exact Or.inr (Or.inl ⟨[], i :: is, rfl, by simp [hB, itemsText]⟩)
      by_cases ha : a = []
      · exact Or.inr (Or.inl ⟨[i], is, rfl, by simp [itemsText, h1, ha]⟩)
      · exact Or.inr (Or.inr ⟨[], i, is, B, a, rfl, h1, hB, ha, by simp [itemsText]⟩)
    · rcases ih a h2.symm with ⟨m, rfl⟩ | ⟨pre, post, rfl, rfl⟩ | ⟨pre, j, post, p, r, rfl, h3, h4, h5, rfl⟩
      · exact Or.inl ⟨m, by rw [h1]; simp [itemsText]⟩
      · exact Or.inr (Or.inl ⟨i :: pre, post, rfl, by rw [h1]; simp [itemsText]⟩)
      · exact Or.inr (Or.inr ⟨i :: pre, j, post, p, r, rfl, h3, h4, h5, by rw [h1]; simp [itemsText]⟩)

/-- Where the header of a tag can be cut. -/
theorem tagItems_cut (N : Nat) (is : List TagItem) (hok : ∀ i ∈ is, HeaderLine N i.line) (msg B : Bytes)
    (h : B <+: tagItemsText is ++ LF :: msg) :
    (∃ m, B = tagItemsText is ++ LF :: m) ∨
    (∃ pre post p, is = pre ++ post ∧ (p = [] ∨ ∃ i, post.head? = some i ∧ p <+: i.line) ∧
      B = tagItemsText pre ++ p) := by
  obtain ⟨q, h⟩ := h
  induction is generalizing B with
  | nil =>
    rcases cut_line (x := []) (T := msg) (by simp) (by simpa [tagItemsText] using h) with ⟨_, h1⟩ | ⟨p', h1, _⟩
    · exact Or.inr ⟨[], [], [], rfl, Or.inl rfl, by simpa [tagItemsText] using h1⟩
    · exact Or.inl ⟨p', by simpa [tagItemsText] using h1⟩
  | cons i is ih =>
    have hi := hok i (by simp)
    have hh : B ++ q = i.line ++ LF :: (tagItemsText is ++ LF :: msg) := by
      rw [h, tagItemsText, List.map_cons, unlines_cons]; rfl
    have hcons : ∀ pre T, i.line ++ LF :: (tagItemsText pre ++ T) = tagItemsText (i :: pre) ++ T := by
      intro pre T; rw [tagItemsText, tagItemsText, List.map_cons, unlines_cons]
    rcases cut_line hi.noLF hh with ⟨_, h1⟩ | ⟨B', rfl, h2⟩
    · exact Or.inr ⟨[], i :: is, B, rfl, Or.inr ⟨i, rfl, h1⟩, by simp [tagItemsText]⟩
    · rcases ih (fun j hj => hok j (by simp [hj])) B' h2 with ⟨m, rfl⟩ | ⟨pre, post, p, rfl, hp, rfl⟩
      · exact Or.inl ⟨m, hcons _ _⟩
      · exact Or.inr ⟨i :: pre, post, p, rfl, hp, hcons _ _⟩

theorem tagItem_line {N : Nat} (hN : 4096 ≤ N) {i : TagItem} (h : i.Ok N) : HeaderLine N i.line := by
  cases i with
  | object x sha => exact headerLine_ref N _ _ _ (by decide) h (by simp; omega)
  | typ x => exact h
  | tag x => exact h
  | tagger p => exact h.2
  | unknown l => exact h.1

end Verif
