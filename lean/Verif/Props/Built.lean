import Verif.Spec.Built
import Verif.Props.Fsck

/-!
# C110 What git reads of an object that a client built
-/

namespace Verif.Props

open Verif Spec

/-! ## Links -/

theorem linkSha_denotes {l : Link} {h : Bytes} (e : linkSha l = .ok h) : Denotes l h ∨ (¬ HasCid l ∧ h = []) := by
  cases l with
  | cid k =>
    left
    simp only [linkSha, cidToSha] at e
    split at e
    · cases e
    · injection e with e
      refine ⟨k, k.hash.take (k.hash.length - 20), rfl, ?_, ?_⟩
      · rw [← e, List.take_append_drop]
      · rw [← e, List.length_drop]; omega
  | nil => injection e with e; exact .inr ⟨(by rintro ⟨_, h⟩; cases h), e.symm⟩
  | other n => injection e with e; exact .inr ⟨(by rintro ⟨_, h⟩; cases h), e.symm⟩

theorem denotes_linkSha {l : Link} {h : Bytes} (e : Denotes l h) : linkSha l = .ok h := by
  obtain ⟨k, p, rfl, hk, hl⟩ := e
  simp only [linkSha, cidToSha, hk, List.length_append, hl]
  rw [if_neg (by omega)]
  simp

theorem denotes_cid {l : Link} {h : Bytes} (e : Denotes l h) : HasCid l ∧ h.length = 20 := by
  obtain ⟨k, p, rfl, _, hl⟩ := e
  exact ⟨⟨k, rfl⟩, hl⟩

/-- The hash is written in hexadecimal; a text of forty digits names it exactly if it
is the one that the link denotes. -/
theorem ref_written {l : Link} {h sha : Bytes} (e : linkSha l = .ok h) : Ref (hex h) sha ↔ Denotes l sha := by
  rcases linkSha_denotes e with hd | ⟨hn, rfl⟩
  · constructor
    · intro hr
      have := ref_unique (ref_hex h (denotes_cid hd).2) hr
      exact this ▸ hd
    · intro hd'
      have h1 := denotes_linkSha hd'
      rw [e] at h1
      injection h1 with h1
      subst h1
      exact ref_hex h (denotes_cid hd).2
  · constructor
    · intro hr
      have h1 := hexOf_length hr.1
      rw [hr.2] at h1
      cases h1
    · intro hd; exact (hn (denotes_cid hd).1).elim

/-! ## Commits -/

theorem encParents_lines {ps : List Link} {b : Bytes} (e : encParents ps = .ok b) :
    ∃ hs, Pairs (fun l h => linkSha l = .ok h) ps hs ∧ b = parentLines (hs.map hex) := by
  induction ps generalizing b with
  | nil => injection e with e; exact ⟨[], trivial, e.symm⟩
  | cons p ps ih =>
    obtain ⟨h, h1, e⟩ := Res.bind_eq_ok.1 e
    obtain ⟨b', h2, e⟩ := Res.bind_eq_ok.1 e
    injection e with e
    obtain ⟨hs, h3, rfl⟩ := ih h2
    refine ⟨h :: hs, ⟨h1, h3⟩, ?_⟩
    rw [← e]
    simp [parentLines, unlines, hex_eq]

theorem encMergeTags_blocks {ts : List Tag} {b : Bytes} (e : encMergeTags ts = .ok b) :
    ∃ hs, b = (ts.zip hs).flatMap (fun p => mergeTagBlock (hex p.2) p.1) ∧ hs.length = ts.length := by
  induction ts generalizing b with
  | nil => injection e with e; exact ⟨[], e.symm, rfl⟩
  | cons t ts ih =>
    obtain ⟨a, h1, e⟩ := Res.bind_eq_ok.1 e
    obtain ⟨b', h2, e⟩ := Res.bind_eq_ok.1 e
    injection e with e
    obtain ⟨hs, rfl, hl⟩ := ih h2
    obtain ⟨h, h3, h4⟩ := Res.bind_eq_ok.1 h1
    injection h4 with h4
    refine ⟨h :: hs, ?_, by simp [hl]⟩
    rw [← e, ← h4]
    simp [mergeTagBlock, unlines, hex_eq, personText_eq]

/-- What follows the persons in a commit, before the message. -/
def builtTail (c : Commit) (ms : Bytes) : Bytes :=
  encodingText c.encoding ++ ms ++ sigText c.signature ++ unlines c.other

/-- All that stands before the message of a commit, and the empty line. -/
def builtHead (c : Commit) (a k : PersonInfo) (th : Bytes) (hs : List Bytes) (ms : Bytes) : Bytes :=
  b!"tree " ++ hex th ++ LF :: (parentLines (hs.map hex) ++
    (b!"author " ++ personText a ++ LF :: (b!"committer " ++ personText k ++ LF :: builtTail c ms)))

theorem encCommit_parts {c : Commit} {enc : Bytes} (e : encCommit c = .ok enc) :
    ∃ a k th hs ms, c.author = some a ∧ c.committer = some k ∧ linkSha c.tree = .ok th ∧
      Pairs (fun l h => linkSha l = .ok h) c.parents hs ∧ encMergeTags c.mergetag = .ok ms ∧
      enc = withHeader b!"commit" (builtHead c a k th hs ms ++ LF :: c.message) := by
  unfold encCommit at e
  obtain ⟨th, h1, e⟩ := Res.bind_eq_ok.1 e
  obtain ⟨ps, h2, e⟩ := Res.bind_eq_ok.1 e
  obtain ⟨au, h3, e⟩ := Res.bind_eq_ok.1 e
  obtain ⟨co, h4, e⟩ := Res.bind_eq_ok.1 e
  obtain ⟨ms, h5, e⟩ := Res.bind_eq_ok.1 e
  injection e with e
  obtain ⟨hs, h6, rfl⟩ := encParents_lines h2
  cases ha : c.author with
  | none => rw [ha] at h3; cases h3
  | some a =>
    cases hk : c.committer with
    | none => rw [hk] at h4; cases h4
    | some k =>
      rw [ha] at h3; rw [hk] at h4
      injection h3 with h3; injection h4 with h4
      refine ⟨a, k, th, hs, ms, rfl, rfl, h1, h6, h5, ?_⟩
      rw [← e, ← h3, ← h4]
      congr 1
      simp only [builtHead, builtTail, encodingText, sigText, encOther, unlines, sigBegin, sigEnd, hex_eq, personText_eq]
      cases c.encoding <;> cases c.signature <;> simp

theorem parents_read {hs : List Bytes} {R : Bytes} (hR : ¬ b!"parent " <+: R) {ps : List Bytes} {rest : Bytes}
    (h : GitParents (parentLines (hs.map hex) ++ R) ps rest) :
    (∃ n, ps = hs.take n) ∧ (∀ p ∈ ps, p.length = 20) ∧ ((∀ x ∈ hs, x.length = 20) → ps = hs) := by
  induction hs generalizing ps rest with
  | nil =>
    generalize hb : parentLines (List.map hex []) ++ R = b at h
    cases h with
    | stop _ _ => exact ⟨⟨0, rfl⟩, by simp, fun _ => rfl⟩
    | more x sha r r' ps hr hs => exact (hR ⟨x ++ LF :: r, by simpa [parentLines] using hb.symm⟩).elim
  | cons y hs ih =>
    have e0 : parentLines ((y :: hs).map hex) ++ R = b!"parent " ++ (hex y ++ LF :: (parentLines (hs.map hex) ++ R)) := by
      simp [parentLines, unlines]
    rw [e0] at h
    generalize hb : b!"parent " ++ (hex y ++ LF :: (parentLines (hs.map hex) ++ R)) = b at h
    cases h with
    | stop _ hst =>
      refine ⟨⟨0, rfl⟩, by simp, fun hall => ?_⟩
      rcases hst with hst | hst
      · exact (hst ⟨_, hb⟩).elim
      · have hl := hexEncode_length y
        rw [hall y (by simp)] at hl
        rw [← hb, hex_eq] at hst
        simp only [List.length_append, List.length_cons, hl] at hst
        have : (b!"parent ").length = 7 := rfl
        omega
    | more x sha r r' ps hr hs' =>
      rw [List.append_assoc] at hb
      have hb := List.append_cancel_left hb
      obtain ⟨rfl, rfl⟩ := split_first hb (hex_noLF y) (ref_noLF hr)
      have hy : y = sha := by
        have h1 := (hexDecode_iff _ _).2 hr.1
        rw [hex_eq, hexDecode_hexEncode] at h1
        injection h1
      subst hy
      obtain ⟨⟨n, h1⟩, h2, h3⟩ := ih hs'
      refine ⟨⟨n + 1, by simp [h1]⟩, ?_, fun hall => ?_⟩
      · intro p hp
        rcases List.mem_cons.1 hp with rfl | hp
        · exact hr.2
        · exact h2 p hp
      · rw [h3 fun x hx => hall x (List.mem_cons_of_mem _ hx)]

theorem parents_reads {hs : List Bytes} (hall : ∀ x ∈ hs, x.length = 20) {R : Bytes} (hR : ¬ b!"parent " <+: R) :
    GitParents (parentLines (hs.map hex) ++ R) hs R := by
  induction hs with
  | nil => exact .stop _ (.inl hR)
  | cons y hs ih =>
    have e0 : parentLines ((y :: hs).map hex) ++ R = b!"parent " ++ hex y ++ LF :: (parentLines (hs.map hex) ++ R) := by
      simp [parentLines, unlines]
    rw [e0]
    exact .more _ _ _ _ _ (ref_hex y (hall y (by simp))) (ih fun x hx => hall x (List.mem_cons_of_mem _ hx))

theorem pairs_denote {ls : List Link} {hs : List Bytes} (h : Pairs (fun l h => linkSha l = .ok h) ls hs) {ps : List Bytes} :
    Pairs Denotes ls ps ↔ ps = hs ∧ ∀ x ∈ hs, x.length = 20 := by
  induction ls generalizing hs ps with
  | nil =>
    cases hs with
    | nil => cases ps <;> simp [Pairs]
    | cons => exact h.elim
  | cons l ls ih =>
    cases hs with
    | nil => exact h.elim
    | cons y hs =>
      cases ps with
      | nil => simp [Pairs]
      | cons p ps =>
        show Denotes l p ∧ Pairs Denotes ls ps ↔ _
        rw [ih h.2]
        constructor
        · rintro ⟨hd, rfl, hx⟩
          have h1 := denotes_linkSha hd
          have h2 : linkSha l = .ok y := h.1
          rw [h2] at h1
          injection h1 with h1
          subst h1
          refine ⟨rfl, fun x hx' => ?_⟩
          rcases List.mem_cons.1 hx' with rfl | hx'
          · exact (denotes_cid hd).2
          · exact hx x hx'
        · rintro ⟨he, hx⟩
          injection he with h1 h2
          subst h1; subst h2
          refine ⟨?_, rfl, fun x hx' => hx x (List.mem_cons_of_mem _ hx')⟩
          rcases linkSha_denotes (show linkSha l = .ok p from h.1) with h' | ⟨_, rfl⟩
          · exact h'
          · have := hx [] (by simp)
            cases this

theorem pairs_take {ls : List Link} {hs : List Bytes} (h : Pairs (fun l h => linkSha l = .ok h) ls hs) (n : Nat) :
    Pairs (fun l h => linkSha l = .ok h) (ls.take n) (hs.take n) := by
  induction ls generalizing hs n with
  | nil =>
    cases hs with
    | nil => simp [Pairs]
    | cons => exact h.elim
  | cons l ls ih =>
    cases hs with
    | nil => exact h.elim
    | cons y hs =>
      cases n with
      | zero => trivial
      | succ n => exact ⟨h.1, ih h.2 n⟩

theorem pairs_cid {ls : List Link} {hs : List Bytes} (h : Pairs (fun l h => linkSha l = .ok h) ls hs)
    (hc : ∀ l ∈ ls, HasCid l) : ∀ x ∈ hs, x.length = 20 := by
  induction ls generalizing hs with
  | nil =>
    cases hs with
    | nil => simp
    | cons => exact h.elim
  | cons l ls ih =>
    cases hs with
    | nil => exact h.elim
    | cons y hs =>
      intro x hx
      rcases List.mem_cons.1 hx with rfl | hx
      · rcases linkSha_denotes (show linkSha l = .ok x from h.1) with h' | ⟨hn, _⟩
        · exact (denotes_cid h').2
        · exact (hn (hc l (by simp))).elim
      · exact ih h.2 (fun l hl => hc l (List.mem_cons_of_mem _ hl)) x hx

/-- Git finds only what the links of the commit denote, in order, whatever the texts
are; and all of it if every link is a CID. -/
theorem built_refs {c : Commit} {enc : Bytes} (e : encCommit c = .ok enc) :
    ∃ body, Framed b!"commit" body enc ∧
      (∀ t ps rest, GitCommit body t ps rest → Denotes c.tree t ∧ ∃ n, Pairs Denotes (c.parents.take n) ps) ∧
      ((∀ p ∈ c.parents, HasCid p) →
        ∀ t ps, (∃ rest, GitCommit body t ps rest) ↔ Denotes c.tree t ∧ Pairs Denotes c.parents ps) := by
  obtain ⟨a, k, th, hs, ms, _, _, ht, hp, _, rfl⟩ := encCommit_parts e
  refine ⟨_, framed_withHeader _ _, ?_⟩
  generalize hR : (b!"author " ++ personText a ++ LF :: (b!"committer " ++ personText k ++ LF :: builtTail c ms)) ++ LF :: c.message = R
  have eb : builtHead c a k th hs ms ++ LF :: c.message = b!"tree " ++ hex th ++ LF :: (parentLines (hs.map hex) ++ R) := by
    rw [← hR]; simp [builtHead]
  have hnp : ¬ b!"parent " <+: R := by rw [← hR]; simp [List.cons_prefix_cons]
  rw [eb]
  have key : ∀ t ps rest, GitCommit (b!"tree " ++ hex th ++ LF :: (parentLines (hs.map hex) ++ R)) t ps rest →
      Denotes c.tree t ∧ GitParents (parentLines (hs.map hex) ++ R) ps rest := by
    rintro t ps rest ⟨x, r, hx, hb, hg⟩
    simp only [List.append_assoc] at hb
    have hb := List.append_cancel_left hb
    obtain ⟨rfl, rfl⟩ := split_first hb (hex_noLF th) (ref_noLF hx)
    exact ⟨(ref_written ht).1 hx, hg⟩
  refine ⟨fun t ps rest hg => ?_, fun hc t ps => ⟨fun ⟨rest, hg⟩ => ?_, fun ⟨h1, h2⟩ => ?_⟩⟩
  · obtain ⟨h1, h2⟩ := key t ps rest hg
    obtain ⟨⟨n, hn⟩, h3, _⟩ := parents_read hnp h2
    exact ⟨h1, n, (pairs_denote (pairs_take hp n)).2 ⟨hn, hn ▸ h3⟩⟩
  · obtain ⟨h1, h2⟩ := key t ps rest hg
    have hl := pairs_cid hp hc
    exact ⟨h1, (pairs_denote hp).2 ⟨(parents_read hnp h2).2.2 hl, hl⟩⟩
  · obtain ⟨rfl, hl⟩ := (pairs_denote hp).1 h2
    exact ⟨R, hex th, _, (ref_written ht).2 h1, rfl, parents_reads hl hnp⟩

/-! ## Empty lines -/

theorem double_split (p b : Bytes) : [LF, LF] <:+: p ++ LF :: b ↔ [LF, LF] <:+: p ++ [LF] ∨ [LF, LF] <:+: LF :: b := by
  induction p with
  | nil =>
    simp only [List.nil_append]
    refine ⟨.inr, fun h => h.elim (fun h => ?_) id⟩
    have := h.length_le
    simp at this
  | cons c p ih =>
    simp only [List.cons_append, List.infix_cons_iff (a := c), ih]
    have : [LF, LF] <+: c :: (p ++ LF :: b) ↔ [LF, LF] <+: c :: (p ++ [LF]) := by
      cases p <;> simp [List.cons_prefix_cons]
    rw [this, or_assoc]

theorem blank_nil : ¬ Blank [] := fun h => by
  have := h.length_le
  simp at this

theorem blank_app {x y : Bytes} (h : Finished x) : Blank (x ++ y) ↔ Blank x ∨ Blank y := by
  rcases h with rfl | h
  · simp [blank_nil]
  · obtain ⟨p, rfl⟩ := List.getLast?_eq_some_iff.1 h
    have := double_split (LF :: p) y
    simpa [Blank] using this

theorem finished_app {x y : Bytes} (hx : Finished x) (hy : Finished y) : Finished (x ++ y) := by
  rcases hy with rfl | hy
  · simpa using hx
  · right; simp [List.getLast?_append, hy]

theorem finished_line (l : Bytes) : Finished (l ++ [LF]) := .inr (by simp)

theorem finished_unlines (ls : List Bytes) : Finished (unlines ls) := by
  induction ls with
  | nil => exact .inl rfl
  | cons l ls ih =>
    have : unlines (l :: ls) = (l ++ [LF]) ++ unlines ls := rfl
    rw [this]
    exact finished_app (finished_line l) ih

theorem blank_single {l : Bytes} (h : LF ∉ l) : Blank (l ++ [LF]) ↔ l = [] := by
  constructor
  · intro hb
    cases l with
    | nil => rfl
    | cons c l =>
      exfalso
      have key : ∀ l : Bytes, LF ∉ l → ¬ [LF, LF] <:+: l ++ [LF] := by
        intro l
        induction l with
        | nil => intro _ h; have := h.length_le; simp at this
        | cons c l ih =>
          intro hl h
          rw [List.cons_append, List.infix_cons_iff] at h
          rcases h with h | h
          · rw [List.cons_prefix_cons] at h
            exact hl (by rw [h.1]; simp)
          · exact ih (fun hm => hl (List.mem_cons_of_mem _ hm)) h
      unfold Blank at hb
      rw [List.infix_cons_iff] at hb
      rcases hb with hb | hb
      · rw [List.cons_prefix_cons, List.cons_append, List.cons_prefix_cons] at hb
        exact h (by rw [hb.2.1]; simp)
      · exact key _ h hb
  · rintro rfl
    exact List.infix_rfl

theorem blank_unlines (ls : List Bytes) : Blank (unlines ls) ↔ ∃ l ∈ ls, Blank (l ++ [LF]) := by
  induction ls with
  | nil => simp [blank_nil]
  | cons l ls ih =>
    have : unlines (l :: ls) = (l ++ [LF]) ++ unlines ls := rfl
    rw [this, blank_app (finished_line l), ih]
    simp

theorem lines_exist (x : Bytes) : ∃ ls tail, x = unlines ls ++ tail ∧ (∀ l ∈ ls, LF ∉ l) ∧ LF ∉ tail := by
  induction x with
  | nil => exact ⟨[], [], rfl, by simp, by simp⟩
  | cons c x ih =>
    obtain ⟨ls, tail, rfl, h1, h2⟩ := ih
    by_cases hc : c = LF
    · subst hc
      refine ⟨[] :: ls, tail, by simp [unlines], ?_, h2⟩
      intro l hl
      rcases List.mem_cons.1 hl with rfl | hl
      · simp
      · exact h1 l hl
    · cases ls with
      | nil => exact ⟨[], c :: tail, rfl, by simp, by simpa [h2] using fun h => hc h.symm⟩
      | cons l ls =>
        refine ⟨(c :: l) :: ls, tail, by simp [unlines], ?_, h2⟩
        intro l' hl
        rcases List.mem_cons.1 hl with rfl | hl
        · simp only [List.mem_cons, not_or]
          exact ⟨fun h => hc h.symm, h1 l (by simp)⟩
        · exact h1 l' (List.mem_cons_of_mem _ hl)

theorem finished_lines {x : Bytes} (h : Finished x) : ∃ ls, x = unlines ls ∧ ∀ l ∈ ls, LF ∉ l := by
  obtain ⟨ls, tail, rfl, h1, h2⟩ := lines_exist x
  rcases h with h | h
  · exact ⟨[], by rw [h]; rfl, by simp⟩
  · cases ht : tail.getLast? with
    | none =>
      rw [List.getLast?_eq_none_iff] at ht
      subst ht
      exact ⟨ls, by simp, h1⟩
    | some c =>
      rw [List.getLast?_append, ht] at h
      have : c = LF := by simpa using h
      subst this
      exact (h2 (List.mem_of_getLast? ht)).elim

/-- Git reads the message from where it was written exactly if there is no empty line
before. -/
theorem message_iff {x : Bytes} (h : Finished x) (m : Bytes) : (∃ ls, GitMessage (x ++ LF :: m) ls m) ↔ ¬ Blank x := by
  constructor
  · rintro ⟨ls, he, hl⟩
    have := List.append_cancel_right he
    subst this
    rw [blank_unlines]
    rintro ⟨l, hm, hb⟩
    exact (hl l hm).1 ((blank_single (hl l hm).2).1 hb)
  · intro hb
    obtain ⟨ls, rfl, hl⟩ := finished_lines h
    refine ⟨ls, rfl, fun l hm => ⟨?_, hl l hm⟩⟩
    rintro rfl
    exact hb ((blank_unlines _).2 ⟨[], hm, (blank_single (by simp)).2 rfl⟩)

theorem finished_block {t : Tag} (h : Finished t.message) (x : Bytes) : Finished (mergeTagBlock x t) :=
  finished_app (finished_unlines _) h

theorem finished_blocks {ts : List Tag} (h : ∀ t ∈ ts, Finished t.message) (hs : List Bytes) :
    Finished ((ts.zip hs).flatMap (fun p => mergeTagBlock (hex p.2) p.1)) := by
  induction ts generalizing hs with
  | nil => exact .inl (by simp)
  | cons t ts ih =>
    cases hs with
    | nil => exact .inl (by simp)
    | cons x hs =>
      rw [List.zip_cons_cons, List.flatMap_cons]
      exact finished_app (finished_block (h t (by simp)) _) (ih (fun t ht => h t (List.mem_cons_of_mem _ ht)) hs)

/-- The texts of a merge tag make no empty line. -/
def TagUnbroken (t : Tag) : Prop :=
  ¬ Blank (b!" type " ++ t.typ ++ [LF]) ∧ ¬ Blank (b!" tag " ++ t.tag ++ [LF]) ∧
    ¬ Blank (b!" tagger " ++ personText t.tagger ++ [LF]) ∧ ¬ Blank t.message

theorem blank_block {t : Tag} (x : Bytes) : ¬ Blank (mergeTagBlock (hex x) t) ↔ TagUnbroken t := by
  have e1 : ¬ Blank (b!"mergetag object " ++ hex x ++ [LF]) := by
    rw [blank_single (by simp only [List.mem_append, not_or]; exact ⟨by decide, hex_noLF x⟩)]
    simp
  have e2 : ¬ Blank (b!" " ++ [LF]) := by rw [blank_single (by decide)]; simp
  unfold mergeTagBlock TagUnbroken
  rw [blank_app (finished_unlines _), blank_unlines]
  simp only [List.mem_cons, List.not_mem_nil, or_false, exists_eq_or_imp, exists_eq_left, not_or]
  constructor
  · rintro ⟨⟨_, h1, h2, h3, _⟩, h4⟩
    exact ⟨h1, h2, h3, h4⟩
  · rintro ⟨h1, h2, h3, h4⟩
    exact ⟨⟨e1, h1, h2, h3, e2⟩, h4⟩

theorem blank_blocks {ts : List Tag} (h : ∀ t ∈ ts, Finished t.message) {hs : List Bytes} (hl : hs.length = ts.length) :
    ¬ Blank ((ts.zip hs).flatMap (fun p => mergeTagBlock (hex p.2) p.1)) ↔ ∀ t ∈ ts, TagUnbroken t := by
  induction ts generalizing hs with
  | nil => simp [blank_nil]
  | cons t ts ih =>
    cases hs with
    | nil => simp at hl
    | cons x hs =>
      rw [List.zip_cons_cons, List.flatMap_cons, blank_app (finished_block (h t (by simp)) _), not_or, blank_block,
        ih (fun t ht => h t (List.mem_cons_of_mem _ ht)) (by simpa using hl)]
      simp

theorem finished_sig (g : Option Bytes) : Finished (sigText g) := by
  cases g with
  | none => exact .inl rfl
  | some g =>
    have : sigText (some g) = (unlines [sigBegin] ++ g ++ sigEnd) ++ [LF] := by simp [sigText, unlines]
    rw [this]
    exact finished_line _

theorem finished_encoding (e : Option Bytes) : Finished (encodingText e) := by
  cases e with
  | none => exact .inl rfl
  | some e => exact finished_unlines _

theorem blank_sig (g : Option Bytes) : ¬ Blank (sigText g) ↔ ∀ x, g = some x → ¬ Blank x := by
  cases g with
  | none => simp [sigText, blank_nil]
  | some g =>
    have e1 : ¬ Blank (unlines [sigBegin]) := by
      rw [blank_unlines]
      rintro ⟨l, hl, hb⟩
      rw [List.mem_singleton] at hl
      subst hl
      exact absurd ((blank_single (by decide)).1 hb) (by decide)
    have e2 : Blank (g ++ unlines [sigEnd]) ↔ Blank g := by
      have h := double_split (LF :: (g ++ sigEnd)) []
      have key : ∀ (c : UInt8) (x : Bytes), [LF, LF] <:+: c :: (x ++ unlines [sigEnd]) ↔ [LF, LF] <:+: c :: x := by
        intro c x
        induction x generalizing c with
        | nil =>
          rw [List.infix_cons_iff]
          have h1 : ¬ [LF, LF] <+: c :: ([] ++ unlines [sigEnd]) := by
            simp only [List.nil_append, List.cons_prefix_cons]
            rintro ⟨_, h⟩; revert h; decide
          have h2 : ¬ [LF, LF] <:+: [] ++ unlines [sigEnd] := by decide
          have h3 : ¬ [LF, LF] <:+: [c] := fun h => by have := h.length_le; simp at this
          simp only [h1, h2, h3, or_self]
        | cons d x ih =>
          rw [List.infix_cons_iff, List.cons_append, ih d, List.infix_cons_iff (a := c)]
          simp [List.cons_prefix_cons]
      exact key LF g
    simp only [sigText, List.append_assoc, blank_app (finished_unlines [sigBegin]), e1, false_or, e2]
    simp

theorem blank_encoding (e : Option Bytes) : ¬ Blank (encodingText e) ↔ ∀ x, e = some x → ¬ Blank (b!"encoding " ++ x ++ [LF]) := by
  cases e with
  | none => simp [encodingText, blank_nil]
  | some e => rw [encodingText, blank_unlines]; simp

theorem builtHead_lines (c : Commit) (a k : PersonInfo) (th : Bytes) (hs : List Bytes) (ms : Bytes) :
    builtHead c a k th hs ms =
      unlines ((b!"tree " ++ hex th) :: (hs.map fun h => b!"parent " ++ hex h)) ++
        (unlines [b!"author " ++ personText a, b!"committer " ++ personText k] ++
          (encodingText c.encoding ++ (ms ++ (sigText c.signature ++ unlines c.other)))) := by
  simp [builtHead, builtTail, unlines, parentLines, List.flatMap_map]

theorem refs_lines (th : Bytes) (hs : List Bytes) :
    ∀ l ∈ (b!"tree " ++ hex th) :: (hs.map fun h => b!"parent " ++ hex h), l ≠ [] ∧ LF ∉ l := by
  intro l hl
  rcases List.mem_cons.1 hl with rfl | hl
  · refine ⟨by simp, ?_⟩
    simp only [List.mem_append, not_or]
    exact ⟨by decide, hex_noLF th⟩
  · obtain ⟨h, _, rfl⟩ := List.mem_map.1 hl
    refine ⟨by simp, ?_⟩
    simp only [List.mem_append, not_or]
    exact ⟨by decide, hex_noLF h⟩

/-- Git has the message of the commit exactly if no text makes an empty line among the
headers. -/
theorem built_message {c : Commit} {enc : Bytes} (e : encCommit c = .ok enc)
    (hm : ∀ t ∈ c.mergetag, Finished t.message) :
    ∃ body a k, Framed b!"commit" body enc ∧ c.author = some a ∧ c.committer = some k ∧
      ((∃ ls, GitMessage body ls c.message) ↔ Unbroken c a k) := by
  obtain ⟨a, k, th, hs, ms, ha, hk, ht, hp, hms, rfl⟩ := encCommit_parts e
  refine ⟨_, a, k, framed_withHeader _ _, ha, hk, ?_⟩
  obtain ⟨zs, rfl, hz⟩ := encMergeTags_blocks hms
  have f1 := finished_encoding c.encoding
  have f2 := finished_blocks hm zs
  have f3 := finished_sig c.signature
  have f4 := finished_unlines c.other
  have e0 : ¬ Blank (unlines ((b!"tree " ++ hex th) :: (hs.map fun h => b!"parent " ++ hex h))) := by
    rw [blank_unlines]
    rintro ⟨l, hl, hb⟩
    have := refs_lines th hs l hl
    exact this.1 ((blank_single this.2).1 hb)
  rw [builtHead_lines, message_iff (finished_app (finished_unlines _) (finished_app (finished_unlines _) (finished_app f1
    (finished_app f2 (finished_app f3 f4)))))]
  rw [blank_app (finished_unlines _), blank_app (finished_unlines _), blank_app f1, blank_app f2, blank_app f3]
  simp only [not_or, e0, not_false_eq_true, true_and]
  rw [blank_encoding, blank_blocks hm hz, blank_sig, blank_unlines, blank_unlines]
  simp only [List.mem_cons, List.not_mem_nil, or_false, exists_eq_or_imp, exists_eq_left, not_or, not_exists, not_and]
  constructor
  · rintro ⟨⟨h1, h2⟩, h3, h4, h5, h6⟩
    exact ⟨h1, h2, h3, fun t ht => (h4 t ht).1, fun t ht => (h4 t ht).2.1, fun t ht => (h4 t ht).2.2.1,
      fun t ht => (h4 t ht).2.2.2, h5, h6⟩
  · intro h
    exact ⟨⟨h.author, h.committer⟩, h.encoding, fun t ht => ⟨h.typ t ht, h.tag t ht, h.tagger t ht, h.message t ht⟩,
      h.signature, h.other⟩

/-! ## Persons -/

theorem front_of_lines {xs ls : List Bytes} {R m : Bytes} (hx : ∀ l ∈ xs, l ≠ [] ∧ LF ∉ l)
    (h : unlines xs ++ R = unlines ls ++ LF :: m) (hl : ∀ l ∈ ls, l ≠ [] ∧ LF ∉ l) : ∃ post, ls = xs ++ post := by
  induction xs generalizing ls with
  | nil => exact ⟨ls, rfl⟩
  | cons x xs ih =>
    rw [unlines_cons] at h
    have hx0 := hx x (by simp)
    cases ls with
    | nil =>
      have := (split_first (b := []) h hx0.2 (by simp)).1
      exact (hx0.1 this).elim
    | cons l ls =>
      rw [unlines_cons] at h
      obtain ⟨rfl, h'⟩ := split_first h hx0.2 (hl l (by simp)).2
      obtain ⟨post, rfl⟩ := ih (fun l hl' => hx l (List.mem_cons_of_mem _ hl')) h' (fun l' hl' => hl l' (List.mem_cons_of_mem _ hl'))
      exact ⟨post, rfl⟩

/-- The first author that git finds is that of the commit if its text is one line, and
the first committer too if both texts are. -/
theorem built_persons {c : Commit} {enc : Bytes} (e : encCommit c = .ok enc) :
    ∃ body a k, Framed b!"commit" body enc ∧ c.author = some a ∧ c.committer = some k ∧
      ∀ ls m, GitMessage body ls m → LF ∉ personText a →
        ls.find? (b!"author ").isPrefixOf = some (b!"author " ++ personText a) ∧
        (LF ∉ personText k → ls.find? (b!"committer ").isPrefixOf = some (b!"committer " ++ personText k)) := by
  obtain ⟨a, k, th, hs, ms, ha, hk, ht, hp, hms, rfl⟩ := encCommit_parts e
  refine ⟨_, a, k, framed_withHeader _ _, ha, hk, ?_⟩
  rintro ls m ⟨hb, hl⟩ hla
  have hr := refs_lines th hs
  have hpre : ∀ w : Bytes, w.head? = some 97 ∨ w.head? = some 99 →
      ((b!"tree " ++ hex th) :: (hs.map fun h => b!"parent " ++ hex h)).find? w.isPrefixOf = none := by
    intro w hw
    obtain ⟨d, w, rfl⟩ : ∃ d w', w = d :: w' := by cases w with
      | nil => simp at hw
      | cons d w => exact ⟨d, w, rfl⟩
    rw [List.find?_eq_none]
    intro l hl
    simp only [List.head?_cons, Option.some.injEq] at hw
    rcases List.mem_cons.1 hl with rfl | hl
    · rcases hw with rfl | rfl <;> simp [List.isPrefixOf]
    · obtain ⟨h, _, rfl⟩ := List.mem_map.1 hl
      rcases hw with rfl | rfl <;> simp [List.isPrefixOf]
  have h1 : ∀ l ∈ ((b!"tree " ++ hex th) :: (hs.map fun h => b!"parent " ++ hex h)) ++ [b!"author " ++ personText a],
      l ≠ [] ∧ LF ∉ l := by
    intro l hl'
    rcases List.mem_append.1 hl' with hl' | hl'
    · exact hr l hl'
    · rw [List.mem_singleton] at hl'
      subst hl'
      refine ⟨by simp, ?_⟩
      simp only [List.mem_append, not_or]
      exact ⟨by decide, hla⟩
  constructor
  · obtain ⟨post, rfl⟩ := front_of_lines (R := b!"committer " ++ personText k ++ LF :: (builtTail c ms ++ LF :: c.message)) h1
      (by rw [← hb, builtHead_lines]; simp [unlines, builtTail]) hl
    rw [List.find?_append, List.find?_append, hpre _ (.inl rfl)]
    simp [List.isPrefixOf]
  · intro hlk
    have h2 : ∀ l ∈ (((b!"tree " ++ hex th) :: (hs.map fun h => b!"parent " ++ hex h)) ++ [b!"author " ++ personText a]) ++
        [b!"committer " ++ personText k], l ≠ [] ∧ LF ∉ l := by
      intro l hl'
      rcases List.mem_append.1 hl' with hl' | hl'
      · exact h1 l hl'
      · rw [List.mem_singleton] at hl'
        subst hl'
        refine ⟨by simp, ?_⟩
        simp only [List.mem_append, not_or]
        exact ⟨by decide, hlk⟩
    obtain ⟨post, rfl⟩ := front_of_lines (R := builtTail c ms ++ LF :: c.message) h2
      (by rw [← hb, builtHead_lines]; simp [unlines, builtTail]) hl
    rw [List.find?_append, List.find?_append, List.find?_append, hpre _ (.inr rfl)]
    simp [List.isPrefixOf]

/-! ## fsck -/

theorem nul_block (x : Bytes) (t : Tag) :
    NUL ∉ mergeTagBlock (hex x) t ↔ ∀ y ∈ [t.typ, t.tag, personText t.tagger, t.message], NUL ∉ y := by
  have hx := hex_nul x
  unfold mergeTagBlock
  simp only [unlines, List.flatMap_cons, List.flatMap_nil, List.mem_append, List.mem_cons, List.not_mem_nil, or_false,
    forall_eq_or_imp, forall_eq, not_or, hx]
  constructor
  · rintro ⟨⟨_, ⟨⟨_, h1⟩, _⟩, ⟨⟨_, h2⟩, _⟩, ⟨⟨_, h3⟩, _⟩, _⟩, h4⟩
    exact ⟨h1, h2, h3, h4⟩
  · rintro ⟨h1, h2, h3, h4⟩
    simp only [h1, h2, h3, h4, not_false_eq_true, and_true]
    decide

theorem nul_blocks {ts : List Tag} {hs : List Bytes} (hl : hs.length = ts.length) :
    NUL ∉ (ts.zip hs).flatMap (fun p => mergeTagBlock (hex p.2) p.1) ↔
      ∀ y ∈ ts.flatMap (fun t => [t.typ, t.tag, personText t.tagger, t.message]), NUL ∉ y := by
  induction ts generalizing hs with
  | nil => simp
  | cons t ts ih =>
    cases hs with
    | nil => simp at hl
    | cons x hs =>
      rw [List.zip_cons_cons, List.flatMap_cons, List.flatMap_cons, List.mem_append, not_or, nul_block, ih (by simpa using hl)]
      constructor
      · rintro ⟨h1, h2⟩ y hy
        rcases List.mem_append.1 hy with hy | hy
        · exact h1 y hy
        · exact h2 y hy
      · intro h
        exact ⟨fun y hy => h y (List.mem_append_left _ hy), fun y hy => h y (List.mem_append_right _ hy)⟩

theorem nul_unlines (ls : List Bytes) : NUL ∉ unlines ls ↔ ∀ l ∈ ls, NUL ∉ l := by
  refine ⟨fun h l hl hm => h (List.mem_flatMap.2 ⟨l, hl, by simp [hm]⟩), unlines_nul⟩

theorem nul_head (c : Commit) (a k : PersonInfo) (th : Bytes) (hs : List Bytes) {zs : List Bytes}
    (hz : zs.length = c.mergetag.length) :
    NUL ∉ builtHead c a k th hs ((c.mergetag.zip zs).flatMap (fun p => mergeTagBlock (hex p.2) p.1)) ++ LF :: c.message ↔
      ∀ x ∈ textsOf c a k, NUL ∉ x := by
  have h0 : NUL ∉ unlines ((b!"tree " ++ hex th) :: (hs.map fun h => b!"parent " ++ hex h)) := by
    rw [nul_unlines]
    intro l hl
    rcases List.mem_cons.1 hl with rfl | hl
    · simp only [List.mem_append, not_or]
      exact ⟨by decide, hex_nul th⟩
    · obtain ⟨h, _, rfl⟩ := List.mem_map.1 hl
      simp only [List.mem_append, not_or]
      exact ⟨by decide, hex_nul h⟩
  have h1 : NUL ∉ unlines [b!"author " ++ personText a, b!"committer " ++ personText k] ↔
      ∀ x ∈ [personText a, personText k], NUL ∉ x := by
    rw [nul_unlines]
    simp [NUL]
  have h2 : NUL ∉ encodingText c.encoding ↔ ∀ x ∈ c.encoding.toList, NUL ∉ x := by
    cases c.encoding with
    | none => simp [encodingText]
    | some e => rw [encodingText, nul_unlines]; simp [NUL]
  have h3 : NUL ∉ sigText c.signature ↔ ∀ x ∈ c.signature.toList, NUL ∉ x := by
    cases c.signature with
    | none => simp [sigText]
    | some g =>
      have i1 : NUL ∉ unlines [sigBegin] := by decide
      have i2 : NUL ∉ unlines [sigEnd] := by decide
      simp [sigText, i1, i2]
  have h4 : NUL ∉ LF :: c.message ↔ ∀ x ∈ [c.message], NUL ∉ x := by simp [NUL, LF]
  rw [builtHead_lines]
  rw [List.mem_append, not_or, List.mem_append, not_or, List.mem_append, not_or, List.mem_append, not_or, List.mem_append,
    not_or, List.mem_append, not_or, h1, h2, h3, h4, nul_blocks hz, nul_unlines c.other]
  simp only [textsOf, List.forall_mem_append, h0, not_false_eq_true, true_and]
  constructor
  · rintro ⟨⟨p1, p2, p3, p4, p5⟩, p6⟩
    exact ⟨⟨⟨⟨⟨p1, p2⟩, p3⟩, p4⟩, p5⟩, p6⟩
  · rintro ⟨⟨⟨⟨⟨p1, p2⟩, p3⟩, p4⟩, p5⟩, p6⟩
    exact ⟨⟨p1, p2, p3, p4, p5⟩, p6⟩

theorem parents_same {xs ys : List Bytes} {R S : Bytes} (hx : ∀ x ∈ xs, LF ∉ x) (hy : ∀ y ∈ ys, LF ∉ y)
    (hR : ¬ b!"parent " <+: R) (hS : ¬ b!"parent " <+: S) (h : parentLines xs ++ R = parentLines ys ++ S) : xs = ys ∧ R = S := by
  induction xs generalizing ys with
  | nil =>
    cases ys with
    | nil => exact ⟨rfl, h⟩
    | cons y ys => exact (hR ⟨y ++ LF :: (parentLines ys ++ S), by simpa [parentLines, unlines] using h.symm⟩).elim
  | cons x xs ih =>
    cases ys with
    | nil => exact (hS ⟨x ++ LF :: (parentLines xs ++ R), by simpa [parentLines, unlines] using h⟩).elim
    | cons y ys =>
      have h' : b!"parent " ++ (x ++ LF :: (parentLines xs ++ R)) = b!"parent " ++ (y ++ LF :: (parentLines ys ++ S)) := by
        simpa [parentLines, unlines] using h
      obtain ⟨rfl, h2⟩ := split_first (List.append_cancel_left h') (hx x (by simp)) (hy y (by simp))
      obtain ⟨rfl, rfl⟩ := ih (fun x hx' => hx x (List.mem_cons_of_mem _ hx')) (fun x hx' => hy x (List.mem_cons_of_mem _ hx')) h2
      exact ⟨rfl, rfl⟩

theorem pairs_left {α β : Type} {R : α → β → Prop} {xs : List α} {ys : List β} (h : Pairs R xs ys) :
    ∀ x ∈ xs, ∃ y ∈ ys, R x y := by
  induction xs generalizing ys with
  | nil => simp
  | cons x xs ih =>
    cases ys with
    | nil => exact h.elim
    | cons y ys =>
      intro z hz
      rcases List.mem_cons.1 hz with rfl | hz
      · exact ⟨y, by simp, h.1⟩
      · obtain ⟨w, hw, hr⟩ := ih h.2 z hz
        exact ⟨w, List.mem_cons_of_mem _ hw, hr⟩

theorem pairs_hexes {ps hs : List Bytes} (h : Pairs Ref (hs.map hex) ps) : ps = hs ∧ ∀ x ∈ hs, x.length = 20 := by
  induction hs generalizing ps with
  | nil =>
    cases ps with
    | nil => simp
    | cons => exact h.elim
  | cons y hs ih =>
    cases ps with
    | nil => exact h.elim
    | cons p ps =>
      obtain ⟨rfl, h2⟩ := ih h.2
      have h1 : Ref (hex y) p := h.1
      have : y = p := by
        have h3 := (hexDecode_iff _ _).2 h1.1
        rw [hex_eq, hexDecode_hexEncode] at h3
        injection h3
      subst this
      refine ⟨rfl, fun x hx => ?_⟩
      rcases List.mem_cons.1 hx with rfl | hx
      · exact h1.2
      · exact h2 x hx

theorem pairs_hexed {hs : List Bytes} (h : ∀ x ∈ hs, x.length = 20) : Pairs Ref (hs.map hex) hs := by
  induction hs with
  | nil => trivial
  | cons y hs ih => exact ⟨ref_hex y (h y (by simp)), ih fun x hx => h x (List.mem_cons_of_mem _ hx)⟩

/-- fsck accepts what is written, with the persons of the commit, exactly if all links
denote something, it accepts the text of the persons, and no text has a NUL. -/
theorem built_fsck {c : Commit} {enc : Bytes} (e : encCommit c = .ok enc)
    (hm : ∀ t ∈ c.mergetag, Finished t.message) :
    ∃ body a k, Framed b!"commit" body enc ∧ c.author = some a ∧ c.committer = some k ∧
      ∀ t ps, (∃ rest, FsckReads body t ps (personText a) (personText k) rest) ↔
        Denotes c.tree t ∧ Pairs Denotes c.parents ps ∧ FsckIdent (personText a) ∧ FsckIdent (personText k) ∧
          ∀ x ∈ textsOf c a k, NUL ∉ x := by
  obtain ⟨a, k, th, hs, ms, ha, hk, ht, hp, hms, rfl⟩ := encCommit_parts e
  refine ⟨_, a, k, framed_withHeader _ _, ha, hk, ?_⟩
  obtain ⟨zs, rfl, hz⟩ := encMergeTags_blocks hms
  intro t ps
  rw [← nul_head c a k th hs hz]
  have hfin : Finished (builtHead c a k th hs ((c.mergetag.zip zs).flatMap (fun p => mergeTagBlock (hex p.2) p.1))) := by
    rw [builtHead_lines]
    exact finished_app (finished_unlines _) (finished_app (finished_unlines _) (finished_app (finished_encoding _)
      (finished_app (finished_blocks hm zs) (finished_app (finished_sig _) (finished_unlines _)))))
  generalize hms' : (c.mergetag.zip zs).flatMap (fun p => mergeTagBlock (hex p.2) p.1) = ms at hfin
  constructor
  · rintro ⟨rest, x, xs, hx, hxs, hia, hik, hb, hn, _⟩
    have hb' : b!"tree " ++ (hex th ++ LF :: (parentLines (hs.map hex) ++ (b!"author " ++ personText a ++ LF ::
        (b!"committer " ++ personText k ++ LF :: (builtTail c ms ++ LF :: c.message))))) =
        b!"tree " ++ (x ++ LF :: (parentLines xs ++ (b!"author " ++ personText a ++ LF ::
        (b!"committer " ++ personText k ++ LF :: rest)))) := by
      simpa [builtHead] using hb
    obtain ⟨rfl, hb2⟩ := split_first (List.append_cancel_left hb') (hex_noLF th) (ref_noLF hx)
    have hxl : ∀ y ∈ xs, LF ∉ y := by
      intro y hy
      obtain ⟨z, _, hr⟩ := pairs_left hxs y hy
      exact ref_noLF hr
    obtain ⟨rfl, _⟩ := parents_same (fun y hy => by
      obtain ⟨z, _, rfl⟩ := List.mem_map.1 hy; exact hex_noLF z) hxl
      (by rintro ⟨r, hr⟩; simp at hr) (by rintro ⟨r, hr⟩; simp at hr) hb2
    exact ⟨(ref_written ht).1 hx, (pairs_denote hp).2 (pairs_hexes hxs), hia, hik, hn⟩
  · rintro ⟨h1, h2, h3, h4, hn⟩
    obtain ⟨rfl, hl⟩ := (pairs_denote hp).1 h2
    refine ⟨builtTail c ms ++ LF :: c.message, hex th, ps.map hex, (ref_written ht).2 h1, pairs_hexed hl, h3, h4,
      by simp [builtHead], hn, ?_⟩
    left
    rcases hfin with hf | hf
    · simp [builtHead] at hf
    · obtain ⟨p, hp'⟩ := List.getLast?_eq_some_iff.1 hf
      rw [hp']
      exact ⟨p, c.message, by simp⟩

/-! ## Tags -/

/-- What git and fsck make of a tag. -/
theorem built_tag {t : Tag} {enc : Bytes} (e : encTag t = .ok enc) :
    ∃ body, Framed b!"tag" body enc ∧
      (∀ o ty n rest, GitTag body o ty n rest → Denotes t.object o) ∧
      (∀ o, (∃ rest, GitTag body o t.typ t.tag rest) ↔
        Denotes t.object o ∧ t.typ ∈ [b!"blob", b!"tree", b!"commit", b!"tag"] ∧ LF ∉ t.tag) ∧
      (t.message ≠ [] → ((∃ ls, GitMessage body ls t.message) ↔ ¬ Blank (b!"type " ++ t.typ ++ [LF]) ∧
        ¬ Blank (b!"tag " ++ t.tag ++ [LF]) ∧ ¬ Blank (b!"tagger " ++ personText t.tagger ++ [LF]))) ∧
      ∀ o, FsckTag body o t.typ t.tag (some (personText t.tagger)) (if t.message = [] then none else some t.message) ↔
        Denotes t.object o ∧ t.typ ∈ [b!"blob", b!"tree", b!"commit", b!"tag"] ∧ LF ∉ t.tag ∧
          FsckIdent (personText t.tagger) ∧ ∀ x ∈ [t.tag, personText t.tagger, t.message], NUL ∉ x := by
  obtain ⟨h, ho, e⟩ := Res.bind_eq_ok.1 e
  injection e with e
  generalize hmsg : messageText (if t.message = [] then none else some t.message) = M
  have eb : enc = withHeader b!"tag" (b!"object " ++ hex h ++ LF :: (b!"type " ++ t.typ ++ LF :: (b!"tag " ++ t.tag ++ LF ::
      (b!"tagger " ++ personText t.tagger ++ LF :: M)))) := by
    rw [← e, ← hmsg, hex_eq, personText_eq]
    congr 1
    by_cases hm : t.message = [] <;> simp [hm, messageText]
  subst eb
  refine ⟨_, framed_withHeader _ _, ?_, ?_, ?_, ?_⟩
  · rintro o ty n rest ⟨x, hx, _, _, hb⟩
    simp only [List.append_assoc] at hb
    obtain ⟨rfl, _⟩ := split_first (List.append_cancel_left hb) (hex_noLF h) (ref_noLF hx)
    exact (ref_written ho).1 hx
  · intro o
    constructor
    · rintro ⟨rest, x, hx, h1, h2, hb⟩
      simp only [List.append_assoc] at hb
      obtain ⟨rfl, _⟩ := split_first (List.append_cancel_left hb) (hex_noLF h) (ref_noLF hx)
      exact ⟨(ref_written ho).1 hx, h1, h2⟩
    · rintro ⟨h1, h2, h3⟩
      exact ⟨_, hex h, (ref_written ho).2 h1, h2, h3, rfl⟩
  · intro hm
    have e0 : b!"object " ++ hex h ++ LF :: (b!"type " ++ t.typ ++ LF :: (b!"tag " ++ t.tag ++ LF ::
        (b!"tagger " ++ personText t.tagger ++ LF :: M))) =
        unlines [b!"object " ++ hex h, b!"type " ++ t.typ, b!"tag " ++ t.tag, b!"tagger " ++ personText t.tagger]
          ++ LF :: t.message := by
      rw [← hmsg, if_neg hm]
      simp [unlines, messageText]
    have e1 : ¬ Blank (b!"object " ++ hex h ++ [LF]) := by
      rw [blank_single (by simp only [List.mem_append, not_or]; exact ⟨by decide, hex_noLF h⟩)]
      simp
    rw [e0, message_iff (finished_unlines _), blank_unlines]
    simp only [List.mem_cons, List.not_mem_nil, or_false, exists_eq_or_imp, exists_eq_left, not_or]
    exact ⟨fun h => h.2, fun h => ⟨e1, h⟩⟩
  · intro o
    constructor
    · rintro ⟨x, hx, h1, h2, h3, hb, hn, _⟩
      simp only [List.append_assoc] at hb
      obtain ⟨rfl, _⟩ := split_first (List.append_cancel_left hb) (hex_noLF h) (ref_noLF hx)
      refine ⟨(ref_written ho).1 hx, h1, h2, h3 _ rfl, ?_⟩
      intro x hx' hc
      apply hn
      simp only [List.mem_cons, List.not_mem_nil, or_false] at hx'
      rcases hx' with rfl | rfl | rfl
      · simp [hc]
      · simp [hc]
      · rw [if_neg (List.ne_nil_of_mem hc)] at hmsg
        simp [← hmsg, messageText, hc]
    · rintro ⟨h1, h2, h3, h4, h5⟩
      simp only [List.mem_cons, List.not_mem_nil, or_false, forall_eq_or_imp, forall_eq] at h5
      obtain ⟨n1, n2, n3⟩ := h5
      have n0 : NUL ∉ t.typ := by
        have : ∀ w ∈ [b!"blob", b!"tree", b!"commit", b!"tag"], NUL ∉ w := by decide
        exact this _ h2
      have nM : NUL ∉ M := by
        rw [← hmsg]
        by_cases hm : t.message = []
        · simp [hm, messageText]
        · rw [if_neg hm]
          simp only [messageText, List.mem_cons, not_or]
          exact ⟨by decide, n3⟩
      refine ⟨hex h, (ref_written ho).2 h1, h2, h3, fun p hp => ?_, ?_, ?_, ?_⟩
      · injection hp with hp; exact hp ▸ h4
      · rw [hmsg]; simp
      · have nL : NUL ≠ LF := by decide
        have k1 : NUL ∉ b!"object " := by decide
        have k2 : NUL ∉ b!"type " := by decide
        have k3 : NUL ∉ b!"tag " := by decide
        have k4 : NUL ∉ b!"tagger " := by decide
        simp only [List.mem_append (a := NUL), List.mem_cons (b := LF), not_or, k1, k2, k3, k4, n0, n1, n2, nM, nL, hex_nul,
          not_false_eq_true, and_self]
      · by_cases hm : t.message = []
        · right
          rw [← hmsg, if_pos hm]
          simp [messageText, List.getLast?_append, List.getLast?_cons]
        · left
          rw [← hmsg, if_neg hm]
          exact ⟨b!"object " ++ hex h ++ LF :: (b!"type " ++ t.typ ++ LF :: (b!"tag " ++ t.tag ++ LF ::
            (b!"tagger " ++ personText t.tagger))), t.message, by simp [messageText]⟩

/-! ## Trees -/

theorem octal_noSP {m : Bytes} (h : ∀ c ∈ m, 0x30 ≤ c ∧ c ≤ 0x37) : SP ∉ m := fun hm => by
  have := (h _ hm).1
  revert this; decide

/-- Git reads a tree in one way only. -/
theorem git_tree_unique {body : Bytes} {es fs : List Entry} (he : GitTree body es) (hf : GitTree body fs) : es = fs := by
  obtain ⟨rfl, he⟩ := he
  obtain ⟨hb, hf⟩ := hf
  induction es generalizing fs with
  | nil =>
    cases fs with
    | nil => rfl
    | cons f fs => simp [treeBody, Entry.text] at hb
  | cons e es ih =>
    cases fs with
    | nil => simp [treeBody, Entry.text] at hb
    | cons f fs =>
      have h1 := he e (by simp)
      have h2 := hf f (by simp)
      have hb' : e.mode ++ SP :: (e.name ++ NUL :: (e.sha ++ treeBody es)) =
          f.mode ++ SP :: (f.name ++ NUL :: (f.sha ++ treeBody fs)) := by
        simpa [treeBody, Entry.text] using hb
      obtain ⟨e1, hb2⟩ := split_first hb' (octal_noSP h1.mode.2) (octal_noSP h2.mode.2)
      obtain ⟨e2, hb3⟩ := split_first hb2 h1.name.2 h2.name.2
      obtain ⟨e3, hb4⟩ := List.append_inj hb3 (by rw [h1.sha, h2.sha])
      rw [ih (fun x hx => he x (List.mem_cons_of_mem _ hx)) hb4 (fun x hx => hf x (List.mem_cons_of_mem _ hx))]
      cases e; cases f
      simp_all

theorem built_rows {rs : List (Bytes × TreeEntry)} {b : Bytes} (e : encTreeEntries rs = .ok b) :
    ∃ es, Pairs RowOf rs es ∧ b = treeBody es := by
  induction rs generalizing b with
  | nil => injection e with e; exact ⟨[], trivial, e.symm⟩
  | cons r rs ih =>
    obtain ⟨n, te⟩ := r
    obtain ⟨x, h1, e⟩ := Res.bind_eq_ok.1 e
    obtain ⟨y, h2, e⟩ := Res.bind_eq_ok.1 e
    injection e with e
    obtain ⟨es, hp, rfl⟩ := ih h2
    unfold encTreeEntry at h1
    cases hh : te.hash with
    | nil => rw [hh] at h1; cases h1
    | other k => rw [hh] at h1; cases h1
    | cid k =>
      rw [hh] at h1
      obtain ⟨h, h3, h1⟩ := Res.bind_eq_ok.1 h1
      injection h1 with h1
      have hd : Denotes te.hash h := by
        rcases linkSha_denotes (l := te.hash) (h := h) (by rw [hh]; exact h3) with hd | ⟨hn, _⟩
        · exact hd
        · exact (hn ⟨k, hh⟩).elim
      exact ⟨⟨te.mode, n, h⟩ :: es, ⟨⟨rfl, rfl, hd⟩, hp⟩, by rw [← e, ← h1]; simp [treeBody, Entry.text]⟩

theorem rows_all {rs : List (Bytes × TreeEntry)} {es : List Entry} (h : Pairs RowOf rs es) (P : Bytes → Bytes → Prop) :
    (∀ e ∈ es, P e.mode e.name) ↔ ∀ r ∈ rs, P r.2.mode r.1 := by
  induction rs generalizing es with
  | nil => cases es with
    | nil => simp
    | cons => exact h.elim
  | cons r rs ih => cases es with
    | nil => exact h.elim
    | cons e es =>
      have h1 := h.1
      simp only [List.mem_cons, forall_eq_or_imp, ih h.2, h1.1, h1.2.1]

theorem rows_pairwise {rs : List (Bytes × TreeEntry)} {es : List Entry} (h : Pairs RowOf rs es)
    (Q : Bytes → Bytes → Bytes → Bytes → Prop) :
    es.Pairwise (fun a b => Q a.mode a.name b.mode b.name) ↔ rs.Pairwise (fun a b => Q a.2.mode a.1 b.2.mode b.1) := by
  induction rs generalizing es with
  | nil => cases es with
    | nil => simp
    | cons => exact h.elim
  | cons r rs ih => cases es with
    | nil => exact h.elim
    | cons e es =>
      have h1 := h.1
      rw [List.pairwise_cons, List.pairwise_cons, ih h.2, rows_all h.2 (fun m n => Q e.mode e.name m n), h1.1, h1.2.1]

theorem rows_names {rs : List (Bytes × TreeEntry)} {es : List Entry} (h : Pairs RowOf rs es) :
    es.map (·.name) = rs.map (·.1) := by
  induction rs generalizing es with
  | nil => cases es with
    | nil => rfl
    | cons => exact h.elim
  | cons r rs ih => cases es with
    | nil => exact h.elim
    | cons e es => rw [List.map_cons, List.map_cons, ih h.2, h.1.1]

theorem rows_sha {rs : List (Bytes × TreeEntry)} {es : List Entry} (h : Pairs RowOf rs es) : ∀ e ∈ es, e.sha.length = 20 := by
  intro e he
  obtain ⟨r, _, hr⟩ := Verif.pairs_mem h e he
  exact (denotes_cid hr.2.2).2

/-- Git reads exactly the rows of the tree, in their order, exactly if every mode is an
octal number and every name a name; fsck accepts them exactly if they were given in
the order of git, each name once. -/
theorem built_tree {t : Tree} {enc : Bytes} (e : encTree t = .ok enc) :
    ∃ body es, Framed b!"tree" body enc ∧ Pairs RowOf t.t es ∧
      (GitTree body es ↔ ∀ r ∈ t.t, (r.2.mode ≠ [] ∧ ∀ c ∈ r.2.mode, 0x30 ≤ c ∧ c ≤ 0x37) ∧ r.1 ≠ [] ∧ NUL ∉ r.1) ∧
      (FsckTree body es ↔ GitTree body es ∧
        t.t.Pairwise (fun a b => Before (fsckName a.2.mode a.1) (fsckName b.2.mode b.1)) ∧ (t.t.map (·.1)).Nodup) := by
  obtain ⟨b, h1, e⟩ := Res.bind_eq_ok.1 e
  injection e with e
  obtain ⟨es, hp, rfl⟩ := built_rows h1
  refine ⟨_, es, e ▸ framed_withHeader _ _, hp, ?_, ?_⟩
  · rw [← rows_all hp (fun m n => (m ≠ [] ∧ ∀ c ∈ m, 0x30 ≤ c ∧ c ≤ 0x37) ∧ n ≠ [] ∧ NUL ∉ n)]
    constructor
    · rintro ⟨_, h⟩ e he
      exact ⟨(h e he).mode, (h e he).name⟩
    · intro h
      exact ⟨rfl, fun e he => ⟨(h e he).1, (h e he).2, rows_sha hp e he⟩⟩
  · unfold FsckTree
    rw [rows_pairwise hp (fun m n m' n' => Before (fsckName m n) (fsckName m' n'))]
    rw [rows_names hp]

/-! ## Instances -/

namespace BuiltExample

/-- A link with another codec and a longer hash. -/
def foreign : Link := .cid { version := 1, codec := 0x70, hash := 0x12 :: 0x20 :: (List.replicate 12 1 ++ List.replicate 20 2) }

example : Denotes foreign (List.replicate 20 2) := ⟨_, 0x12 :: 0x20 :: List.replicate 12 1, rfl, rfl, rfl⟩

def who : PersonInfo := { name := b!"A", email := b!"a", date := b!"1", timezone := b!"+0000" }

/-- A commit whose author brings further headers along. -/
def inject : Commit :=
  { tree := gitLink (List.replicate 20 3), parents := [foreign],
    author := some { who with name := b!"A <a> 1 +0000\nparent 0404040404040404040404040404040404040404\nx" },
    committer := some who, message := b!"m", encoding := none, signature := none, mergetag := [], other := [] }

/-- It is written, and git reads its own tree and parents. -/
example : ∃ enc body rest, encCommit inject = .ok enc ∧ Framed b!"commit" body enc ∧
    GitCommit body (List.replicate 20 3) [List.replicate 20 2] rest := by
  obtain ⟨enc, he⟩ : ∃ enc, encCommit inject = .ok enc := ⟨_, rfl⟩
  obtain ⟨body, hf, _, h⟩ := built_refs he
  obtain ⟨rest, hr⟩ := (h (by simp [inject, foreign, HasCid]) (List.replicate 20 3) [List.replicate 20 2]).2
    ⟨⟨_, [0x11, 0x14], rfl, rfl, rfl⟩, ⟨_, 0x12 :: 0x20 :: List.replicate 12 1, rfl, rfl, rfl⟩, trivial⟩
  exact ⟨enc, body, rest, he, hf, hr⟩

/-- The decoder of the package takes the line in the author for a parent. -/
example : (match encCommit inject >>= fun enc => parseObject (σ := Stream) ⟨enc, .eof, 4096⟩ with
    | .ok (.commit c) => c.parents
    | _ => []) = [gitLink (List.replicate 20 2), gitLink (List.replicate 20 4)] := by decide +kernel

/-- The author that git finds first is not that of the commit, though. -/
example : LF ∈ personText { who with name := b!"A <a> 1 +0000\nparent 0404040404040404040404040404040404040404\nx" } := by
  decide

def plain : Commit :=
  { inject with
    author := some who, encoding := some b!"latin1", other := [b!"x y"], message := b!"\nm\n\n",
    mergetag := [{ object := foreign, typ := b!"commit", tag := b!"v1", tagger := who, message := b!" m\n" }],
    signature := some b!" \n abc\n" }

theorem plain_unbroken : Unbroken plain who who where
  author := fun h => absurd ((blank_single (by decide)).1 h) (by decide)
  committer := fun h => absurd ((blank_single (by decide)).1 h) (by decide)
  encoding := by
    intro e h
    injection h with h
    subst h
    exact fun h => absurd ((blank_single (by decide)).1 h) (by decide)
  typ := by
    intro t ht
    rw [show t = _ from List.mem_singleton.1 ht]
    exact fun h => absurd ((blank_single (by decide)).1 h) (by decide)
  tag := by
    intro t ht
    rw [show t = _ from List.mem_singleton.1 ht]
    exact fun h => absurd ((blank_single (by decide)).1 h) (by decide)
  tagger := by
    intro t ht
    rw [show t = _ from List.mem_singleton.1 ht]
    exact fun h => absurd ((blank_single (by decide)).1 h) (by decide)
  message := by
    intro t ht
    rw [show t = _ from List.mem_singleton.1 ht]
    exact fun h => absurd ((blank_single (l := b!" m") (by decide)).1 h) (by decide)
  signature := by
    intro g h
    injection h with h
    subst h
    have : ¬ Blank (unlines [b!" ", b!" abc"]) := by
      rw [blank_unlines]
      simp only [List.mem_cons, List.not_mem_nil, or_false, exists_eq_or_imp, exists_eq_left, not_or]
      exact ⟨fun h => absurd ((blank_single (by decide)).1 h) (by decide), fun h => absurd ((blank_single (by decide)).1 h) (by decide)⟩
    exact this
  other := by
    intro l hl
    rw [show l = _ from List.mem_singleton.1 hl]
    exact fun h => absurd ((blank_single (by decide)).1 h) (by decide)

theorem plain_done : ∀ t ∈ plain.mergetag, Finished t.message := by
  intro t ht
  rw [show t = _ from List.mem_singleton.1 ht]
  exact .inr rfl

/-- Git has the message, which begins and ends with empty lines. -/
example : ∃ enc body ls, encCommit plain = .ok enc ∧ Framed b!"commit" body enc ∧ GitMessage body ls b!"\nm\n\n" := by
  obtain ⟨enc, he⟩ : ∃ enc, encCommit plain = .ok enc := ⟨_, rfl⟩
  obtain ⟨body, a, k, hf, ha, hk, h⟩ := built_message he plain_done
  injection ha with ha
  injection hk with hk
  subst ha; subst hk
  obtain ⟨ls, hl⟩ := h.2 plain_unbroken
  exact ⟨enc, body, ls, he, hf, hl⟩

/-- An empty line among the others, and the message begins there. -/
example : ¬ Unbroken { plain with other := [b!""] } who who := fun h =>
  h.other b!"" (by simp) ((blank_single (by simp)).2 rfl)

theorem who_ident : FsckIdent (personText who) :=
  ⟨⟨b!"A", b!"a", [], b!"1", b!"+0000"⟩, ⟨by decide, by decide, by decide, ⟨1, ⟨by decide, by unfold Digit; decide, by decide, by decide⟩, by decide⟩,
    ⟨43, b!"0000", rfl, .inl rfl, rfl, by unfold Digit; decide⟩⟩, rfl⟩

/-- fsck accepts the commit. -/
example : ∃ enc body rest, encCommit plain = .ok enc ∧ Framed b!"commit" body enc ∧
    FsckReads body (List.replicate 20 3) [List.replicate 20 2] (personText who) (personText who) rest := by
  obtain ⟨enc, he⟩ : ∃ enc, encCommit plain = .ok enc := ⟨_, rfl⟩
  obtain ⟨body, a, k, hf, ha, hk, h⟩ := built_fsck he plain_done
  injection ha with ha
  injection hk with hk
  subst ha; subst hk
  obtain ⟨rest, hr⟩ := (h (List.replicate 20 3) [List.replicate 20 2]).2
    ⟨⟨_, [0x11, 0x14], rfl, rfl, rfl⟩, ⟨⟨_, 0x12 :: 0x20 :: List.replicate 12 1, rfl, rfl, rfl⟩, trivial⟩, who_ident, who_ident,
      by decide⟩
  exact ⟨enc, body, rest, he, hf, hr⟩

/-- A tag that fsck accepts. -/
example : ∃ enc body, encTag ⟨foreign, b!"commit", b!"v1", who, b!"m"⟩ = .ok enc ∧ Framed b!"tag" body enc ∧
    FsckTag body (List.replicate 20 2) b!"commit" b!"v1" (some (personText who)) (some b!"m") := by
  obtain ⟨enc, he⟩ : ∃ enc, encTag ⟨foreign, b!"commit", b!"v1", who, b!"m"⟩ = .ok enc := ⟨_, rfl⟩
  obtain ⟨body, hf, _, _, _, h⟩ := built_tag he
  exact ⟨enc, body, he, hf, (h (List.replicate 20 2)).2 ⟨⟨_, 0x12 :: 0x20 :: List.replicate 12 1, rfl, rfl, rfl⟩, by decide, by decide,
    who_ident, by decide⟩⟩

def row (name mode : Bytes) : Bytes × TreeEntry := (name, { mode := mode, hash := foreign })

/-- A tree in the order of git, where `a.c` is before the directory `a`. -/
example : ∃ enc body es, encTree ⟨[], [row b!"a.c" b!"100644", row b!"a" b!"40000"]⟩ = .ok enc ∧ Framed b!"tree" body enc ∧
    FsckTree body es := by
  obtain ⟨enc, he⟩ : ∃ enc, encTree ⟨[], [row b!"a.c" b!"100644", row b!"a" b!"40000"]⟩ = .ok enc := ⟨_, rfl⟩
  obtain ⟨body, es, hf, _, hg, h⟩ := built_tree he
  refine ⟨enc, body, es, he, hf, h.2 ⟨hg.2 (by decide), ?_, by decide⟩⟩
  rw [List.pairwise_cons]
  refine ⟨fun b hb => ?_, List.pairwise_singleton _ _⟩
  rw [show b = _ from List.mem_singleton.1 hb]
  exact .eq _ _ _ (.lt _ _ _ _ (by decide))

/-- A name with NUL: git reads two entries. -/
example : ∃ body, encTree ⟨[], [row (b!"a\x00" ++ List.replicate 20 5 ++ b!"100644 b") b!"100644"]⟩
      = .ok (withHeader b!"tree" body) ∧
    GitTree body [⟨b!"100644", b!"a", List.replicate 20 5⟩, ⟨b!"100644", b!"b", List.replicate 20 2⟩] := by
  refine ⟨_, rfl, by decide +kernel, ?_⟩
  intro e he
  simp only [List.mem_cons, List.not_mem_nil, or_false] at he
  rcases he with rfl | rfl <;> exact ⟨by decide, by decide, rfl⟩

/-- A parent that is no CID: git reads the commit without it if there is little behind. -/
example : ∃ body, encCommit { inject with parents := [.nil], author := some ⟨[], [], [], []⟩, committer := some ⟨[], [], [], []⟩ }
      = .ok (withHeader b!"commit" body) ∧ ∃ rest, GitCommit body (List.replicate 20 3) [] rest := by
  refine ⟨_, rfl, _, hex (List.replicate 20 3), _, ref_hex _ rfl, rfl, .stop _ (.inr ?_)⟩
  decide +kernel

end BuiltExample

end Verif.Props
