import Verif.Spec.GitRead
import Verif.Props.Faults
import Verif.Proofs.Items
import Verif.Props.Accept

/-!
# C102 Where git and the package read different things
-/

namespace Verif.Props

open Verif Spec

/-! ## Lines -/

theorem line_header {N : Nat} {l : Bytes} (h : HeaderLine N l) (r : Bytes) : Line N (l ++ LF :: r) l r :=
  .lf l r h.noLF h.noCR h.short

theorem line_ref {N : Nat} (hN : 48 ≤ N) (w h sha r : Bytes) (hw : LF ∉ w) (hl : w.length ≤ 7) (hr : Ref h sha) :
    Line N (w ++ h ++ LF :: r) (w ++ h) r :=
  line_header (headerLine_ref N w h sha hw hr (by omega)) r

theorem blocks_line {N : Nat} (hN : 2 ≤ N) {b l r : Bytes} (hl : Line N b l r) (hne : l ≠ [])
    (hm : ¬ b!"mergetag object " <+: l) (hg : ¬ b!"gpgsig " <+: l) {bs : List Spec.Block} {m : Option Bytes}
    (h : Blocks N b bs m) : ∃ bs', bs = .line l :: bs' ∧ Blocks N r bs' m := by
  cases h with
  | done => exact (Line_nil hN hl).elim
  | blank _ r' h2 => exact (hne (Line_unique hN hl h2).1).elim
  | line _ l' r' bs' _ h2 _ _ _ hr =>
    obtain ⟨rfl, rfl⟩ := Line_unique hN hl h2
    exact ⟨_, rfl, hr⟩
  | sig _ l' r' _ _ _ _ h2 hg' =>
    obtain ⟨rfl, rfl⟩ := Line_unique hN hl h2
    exact (hg hg').elim
  | merge _ x _ _ _ _ _ _ _ h2 =>
    obtain ⟨rfl, rfl⟩ := Line_unique hN hl h2
    exact (hm (List.prefix_append _ _)).elim
  | cut _ x _ _ h2 =>
    obtain ⟨rfl, rfl⟩ := Line_unique hN hl h2
    exact (hm (List.prefix_append _ _)).elim

theorem head_line {N : Nat} (hN : 2 ≤ N) {b l r : Bytes} (hl : Line N b l r) (hne : l ≠ []) {ls : List Bytes}
    {m : Option Bytes} (h : Head N b ls m) : ∃ ls', ls = l :: ls' ∧ Head N r ls' m := by
  cases h with
  | done => exact (Line_nil hN hl).elim
  | blank _ r' h2 => exact (hne (Line_unique hN hl h2).1).elim
  | line _ l' r' ls' _ h2 _ hr =>
    obtain ⟨rfl, rfl⟩ := Line_unique hN hl h2
    exact ⟨_, rfl, hr⟩

theorem prefix_ne {w x h : Bytes} (hw : w ≠ []) (hx : x.head? ≠ w.head?) : ¬ w <+: x ++ h ∨ x = [] := by
  cases x with
  | nil => exact .inr rfl
  | cons a x =>
    left
    rintro ⟨t, ht⟩
    cases w with
    | nil => exact hw rfl
    | cons c w =>
      simp only [List.cons_append, List.cons.injEq] at ht
      simp [ht.1] at hx

/-! ## The references of a commit -/

theorem git_parents_blocks {N : Nat} (hN : 48 ≤ N) {b rest : Bytes} {ps : List Bytes} (h : GitParents b ps rest)
    {bs : List Spec.Block} {m : Option Bytes} (hb : Blocks N b bs m) :
    ∃ hs bs', Pairs Ref hs ps ∧ bs = hs.map (fun h => Spec.Block.line (b!"parent " ++ h)) ++ bs' ∧ Blocks N rest bs' m := by
  induction h generalizing bs with
  | stop b h => exact ⟨[], bs, trivial, rfl, hb⟩
  | more h sha r r' ps hr hs ih =>
    obtain ⟨bs1, rfl, hb1⟩ := blocks_line (by omega) (line_ref hN b!"parent " h sha r (by decide) (by decide) hr)
      (by simp) (by simp [List.cons_prefix_cons]) (by simp [List.cons_prefix_cons]) hb
    obtain ⟨hs', bs2, hp, rfl, hb2⟩ := ih hb1
    exact ⟨h :: hs', bs2, ⟨hr, hp⟩, rfl, hb2⟩

theorem plain_parents (hs : List Bytes) (bs : List Spec.Block) :
    plainLines (hs.map (fun h => Spec.Block.line (b!"parent " ++ h)) ++ bs) = hs.map (b!"parent " ++ ·) ++ plainLines bs := by
  induction hs with
  | nil => rfl
  | cons h hs ih =>
    simp only [plainLines, List.map_cons, List.cons_append, List.filterMap_cons] at ih ⊢
    rw [ih]

theorem behind_app (w : Bytes) (xs ys : List Bytes) : behind w (xs ++ ys) = behind w xs ++ behind w ys := by
  simp [behind, linesWith]

theorem behind_parents (hs : List Bytes) : behind b!"parent " (hs.map (b!"parent " ++ ·)) = hs := by
  induction hs with
  | nil => rfl
  | cons h hs ih =>
    simp only [behind, linesWith, List.map_cons] at ih ⊢
    rw [List.filter_cons_of_pos (p := fun x => b!"parent ".isPrefixOf x) (by simp), List.map_cons, ih]
    simp

theorem behind_tree_parents (hs : List Bytes) : behind b!"tree " (hs.map (b!"parent " ++ ·)) = [] := by
  simp [behind, linesWith]

theorem pairs_app {α β : Type} {R : α → β → Prop} {xs xs' : List α} {zs : List β} (h : Pairs R (xs ++ xs') zs) :
    ∃ ys ys', zs = ys ++ ys' ∧ Pairs R xs ys ∧ Pairs R xs' ys' := by
  induction xs generalizing zs with
  | nil => exact ⟨[], zs, rfl, trivial, h⟩
  | cons x xs ih =>
    cases zs with
    | nil => exact h.elim
    | cons z zs =>
      obtain ⟨ys, ys', rfl, h1, h2⟩ := ih h.2
      exact ⟨z :: ys, ys', rfl, ⟨h.1, h1⟩, h2⟩

theorem pairs_refs {hs ps : List Bytes} {ls : List Link} (h : Pairs Ref hs ps) (h' : Pairs RefLink hs ls) :
    ls = ps.map gitLink := by
  induction hs generalizing ps ls with
  | nil =>
    cases ps with
    | nil => cases ls with
      | nil => rfl
      | cons => exact h'.elim
    | cons => exact h.elim
  | cons x hs ih =>
    cases ps with
    | nil => exact h.elim
    | cons p ps =>
      cases ls with
      | nil => exact h'.elim
      | cons l ls =>
        obtain ⟨sha, hs, rfl⟩ := h'.1
        rw [ref_unique hs h.1, ih h.2 h'.2]
        rfl

theorem lastValue_first {xs : List Bytes} {x : Bytes} {l d v : Link} (hx : RefLink x l)
    (h : LastValue RefLink (x :: xs) d v) : LastValue RefLink xs l v := by
  obtain ⟨ys, hp, rfl⟩ := h
  cases ys with
  | nil => exact hp.elim
  | cons y ys =>
    obtain ⟨a, ha, rfl⟩ := hx
    obtain ⟨b, hb, rfl⟩ := hp.1
    refine ⟨ys, hp.2, ?_⟩
    rw [ref_unique ha hb, List.getLast?_cons]
    cases ys.getLast? <;> rfl

/-- The body of an accepted commit. -/
theorem commit_body {s : Stream} (hN : 2 ≤ s.bufsz) {c : Commit} (h : parseObject s = .ok (.commit c)) {d body : Bytes}
    (hd : NUL ∉ d) (hs : s.rest = b!"commit " ++ d ++ NUL :: body) :
    ∃ bs m, Blocks s.bufsz body bs m ∧ CommitMeans bs m c := by
  obtain ⟨_, d', z, body', bs, m, hz, hs', hb, hc⟩ := (commit_accepts s hN c).1 h
  rw [hs] at hs'
  simp only [List.append_assoc, List.append_cancel_left_eq] at hs'
  have h9 := splitAt_notin NUL d body hd
  rw [hs', splitAt_notin NUL d' _ hz.1] at h9
  simp only [Option.some.injEq, Prod.mk.injEq] at h9
  exact ⟨bs, m, h9.2 ▸ hb, hc⟩

/-- If git reads a commit, the package reads the same tree and parents, and then
those of the header lines that follow: a parent there is one more, a tree there
replaces the tree. -/
theorem git_refs {s : Stream} (hN : 48 ≤ s.bufsz) {c : Commit} (h : parseObject s = .ok (.commit c)) {d body : Bytes}
    (hd : NUL ∉ d) (hs : s.rest = b!"commit " ++ d ++ NUL :: body) {t rest : Bytes} {ps : List Bytes}
    (hg : GitCommit body t ps rest) :
    ∃ bs m, Blocks s.bufsz rest bs m ∧
      (∃ ls, Pairs RefLink (behind b!"parent " (plainLines bs)) ls ∧ c.parents = ps.map gitLink ++ ls) ∧
      LastValue RefLink (behind b!"tree " (plainLines bs)) (gitLink t) c.tree := by
  obtain ⟨bs, m, hb, hc⟩ := commit_body (by omega) h hd hs
  obtain ⟨x, r, hx, rfl, hp⟩ := hg
  obtain ⟨bs1, rfl, hb1⟩ := blocks_line (by omega) (line_ref hN b!"tree " x t r (by decide) (by decide) hx)
    (by simp) (by simp [List.cons_prefix_cons]) (by simp [List.cons_prefix_cons]) hb
  obtain ⟨hs', bs2, hps, rfl, hb2⟩ := git_parents_blocks hN hp hb1
  have e : plainLines (Spec.Block.line (b!"tree " ++ x) :: (hs'.map (fun h => Spec.Block.line (b!"parent " ++ h)) ++ bs2))
      = (b!"tree " ++ x) :: (hs'.map (b!"parent " ++ ·) ++ plainLines bs2) := by
    rw [← plain_parents]; rfl
  have e1 : ∀ w (l : Bytes) (ls : List Bytes), behind w (l :: ls) = behind w [l] ++ behind w ls :=
    fun w l ls => behind_app w [l] ls
  have e2 : behind b!"parent " [b!"tree " ++ x] = [] := by simp [behind, linesWith]
  have e3 : behind b!"tree " [b!"tree " ++ x] = [x] := by simp [behind, linesWith]
  have hpar := hc.parents
  have htree := hc.tree
  rw [e, e1, e2, List.nil_append, behind_app, behind_parents] at hpar
  rw [e, e1, e3, behind_app, behind_tree_parents] at htree
  refine ⟨bs2, m, hb2, ?_, lastValue_first ⟨t, hx, rfl⟩ htree⟩
  obtain ⟨ys, ys', h1, h2, h3⟩ := pairs_app hpar
  exact ⟨ys', h3, by rw [h1, pairs_refs hps h2]⟩

theorem pairs_nil {α β : Type} {R : α → β → Prop} {xs : List α} {ys : List β} (h : Pairs R xs ys) :
    xs = [] ↔ ys = [] := by
  cases xs <;> cases ys <;> simp_all [Pairs]

theorem lastValue_iff {xs : List Bytes} {d v : Link} (h : LastValue RefLink xs d v) :
    v = d ↔ ∀ x, xs.getLast? = some x → RefLink x d := by
  obtain ⟨ys, hp, rfl⟩ := h
  have key : ∀ (xs : List Bytes) (ys : List Link), Pairs RefLink xs ys →
      (xs.getLast? = none ∧ ys.getLast? = none) ∨ ∃ x y, xs.getLast? = some x ∧ ys.getLast? = some y ∧ RefLink x y := by
    intro xs
    induction xs with
    | nil => intro ys h; cases ys with
      | nil => exact .inl ⟨rfl, rfl⟩
      | cons => exact h.elim
    | cons x xs ih =>
      intro ys h
      cases ys with
      | nil => exact h.elim
      | cons y ys =>
        right
        rcases ih ys h.2 with ⟨h1, h2⟩ | ⟨x', y', h1, h2, h3⟩
        · exact ⟨x, y, by simp [List.getLast?_cons, h1], by simp [List.getLast?_cons, h2], h.1⟩
        · exact ⟨x', y', by simp [List.getLast?_cons, h1], by simp [List.getLast?_cons, h2], h3⟩
  rcases key xs ys hp with ⟨h1, h2⟩ | ⟨x, y, h1, h2, h3⟩
  · simp [h1, h2]
  · rw [h1, h2]
    simp only [Option.getD_some, Option.some.injEq]
    constructor
    · rintro rfl z rfl; exact h3
    · intro h
      obtain ⟨a, ha, rfl⟩ := h3
      obtain ⟨b, hb, hd⟩ := h x rfl
      rw [hd, ref_unique ha hb]

theorem refLink_gitLink (x t : Bytes) : RefLink x (gitLink t) ↔ Ref x t :=
  ⟨fun ⟨a, ha, he⟩ => by simp only [gitLink, Link.cid.injEq, Cid.mk.injEq, List.cons.injEq, true_and] at he; rwa [he],
    fun h => ⟨t, h, rfl⟩⟩

/-- The package reads the same parents as git exactly if no further header line
begins with `parent `, and the same tree exactly if the last further line that
begins with `tree `, if any, names the same. -/
theorem git_refs_exact {s : Stream} (hN : 48 ≤ s.bufsz) {c : Commit} (h : parseObject s = .ok (.commit c))
    {d body : Bytes} (hd : NUL ∉ d) (hs : s.rest = b!"commit " ++ d ++ NUL :: body) {t rest : Bytes} {ps : List Bytes}
    (hg : GitCommit body t ps rest) :
    ∃ bs m, Blocks s.bufsz rest bs m ∧
      (c.parents = ps.map gitLink ↔ behind b!"parent " (plainLines bs) = []) ∧
      (c.tree = gitLink t ↔ ∀ x, (behind b!"tree " (plainLines bs)).getLast? = some x → Ref x t) := by
  obtain ⟨bs, m, hb, ⟨ls, hp, he⟩, ht⟩ := git_refs hN h hd hs hg
  refine ⟨bs, m, hb, ?_, ?_⟩
  · rw [he, pairs_nil hp]; simp
  · rw [lastValue_iff ht]
    simp only [refLink_gitLink]

/-! ## Commits that git refuses -/

theorem prefix_before {w a b : Bytes} {x : UInt8} (h : w <+: a ++ x :: b) (hx : x ∉ w) : w <+: a := by
  induction w generalizing a with
  | nil => exact List.nil_prefix
  | cons c w ih =>
    cases a with
    | nil =>
      rw [List.nil_append, List.cons_prefix_cons] at h
      exact (hx (by simp [h.1])).elim
    | cons d a =>
      rw [List.cons_append, List.cons_prefix_cons] at h
      rw [List.cons_prefix_cons]
      exact ⟨h.1, ih h.2 (fun h' => hx (List.mem_cons_of_mem _ h'))⟩

theorem line_prefix {N : Nat} {b l r w : Bytes} (h : Line N b l r) (hw : w <+: b) (hl : LF ∉ w) (hc : CR ∉ w)
    (hn : w.length ≤ N) : w <+: l := by
  cases h with
  | lf l r h1 h2 h3 => exact prefix_before hw hl
  | crlf l r h1 h2 => exact prefix_before hw hc
  | last l h1 h2 h3 => exact hw
  | full l r h1 h2 h3 => exact List.prefix_of_prefix_length_le hw (List.prefix_append _ _) (by omega)
  | fullCR l r h1 h2 => exact prefix_before hw hc

theorem not_both {w v l : Bytes} (h : w <+: l) (h' : v <+: l) (hne : w.head? ≠ v.head?) (hw : w ≠ []) (hv : v ≠ []) :
    False := by
  obtain ⟨a, rfl⟩ := h
  obtain ⟨b, hb⟩ := h'
  cases w with
  | nil => exact hw rfl
  | cons x w =>
    cases v with
    | nil => exact hv rfl
    | cons y v =>
      simp only [List.cons_append, List.cons.injEq] at hb
      simp [hb.1] at hne

theorem after_ref {w x y a b : Bytes} (h : w ++ x ++ a = w ++ y ++ b) {s t : Bytes} (hx : Ref x s) (hy : Ref y t) :
    a = b := by
  refine List.append_inj_right h ?_
  rw [List.length_append, List.length_append, hexOf_length hx.1, hx.2, hexOf_length hy.1, hy.2]

theorem git_parents_none {N : Nat} (hN : 49 ≤ N) {b : Bytes} {bs : List Spec.Block} {m : Option Bytes}
    (hb : Blocks N b bs m) {ls : List Link} (hp : Pairs RefLink (behind b!"parent " (plainLines bs)) ls) :
    (∃ ps rest, GitParents b ps rest) ∨
      ∃ (hs : List Bytes) (h sha r : Bytes), (∀ x ∈ hs, ∃ a, Ref x a) ∧ Ref h sha ∧
        b = parentLines hs ++ (b!"parent " ++ h ++ CR :: LF :: r) := by
  by_cases hpre : b!"parent " <+: b
  · have hl0 : ∀ {l r}, Line N b l r → b!"parent " <+: l := fun h =>
      line_prefix h hpre (by decide) (by decide) (by simp; omega)
    cases hb with
    | done => simp at hpre
    | blank _ r h => simpa using hl0 h
    | line _ l r bs _ h hne hm hg hr =>
      obtain ⟨x, rfl⟩ := hl0 h
      have e : behind b!"parent " (plainLines (.line (b!"parent " ++ x) :: bs)) = x :: behind b!"parent " (plainLines bs) :=
        (behind_app _ [b!"parent " ++ x] (plainLines bs)).trans (by simp [behind, linesWith])
      rw [e] at hp
      cases ls with
      | nil => exact hp.elim
      | cons y ls =>
        obtain ⟨sha, hx, _⟩ := hp.1
        have hlen : x.length = 40 := by rw [hexOf_length hx.1, hx.2]
        generalize hL : b!"parent " ++ x = L at h
        have hL' : L.length = 47 := by rw [← hL]; simp [hlen]
        cases h with
        | lf _ r h1 h2 h3 =>
          rcases git_parents_none hN hr hp.2 with ⟨ps, rest, hg⟩ | ⟨hs, h', sha', r', h4, h5, rfl⟩
          · rw [← hL]
            exact .inl ⟨sha :: ps, rest, .more x sha _ _ ps hx hg⟩
          · refine .inr ⟨x :: hs, h', sha', r', ?_, h5, ?_⟩
            · intro y hy
              rcases List.mem_cons.1 hy with rfl | hy
              · exact ⟨sha, hx⟩
              · exact h4 y hy
            · rw [← hL]
              simp [parentLines, unlines]
        | crlf _ r h1 h2 => rw [← hL]; exact .inr ⟨[], x, sha, r, by simp, hx, rfl⟩
        | last _ h1 h2 h3 => exact .inl ⟨[], _, .stop _ (.inr (by omega))⟩
        | full _ r h1 h2 h3 => omega
        | fullCR _ r h1 h2 => omega
    | sig _ l r r' ls bs _ h hg hl hr => exact (not_both (hl0 h) hg (by decide) (by decide) (by decide)).elim
    | merge _ x _ _ _ _ _ _ _ h =>
      exact (not_both (hl0 h) (List.prefix_append _ x) (by decide) (by decide) (by decide)).elim
    | cut _ x _ _ h =>
      exact (not_both (hl0 h) (List.prefix_append _ x) (by decide) (by decide) (by decide)).elim
  · exact .inl ⟨[], _, .stop _ (.inl hpre)⟩
termination_by bs.length

theorem git_parents_cr {hs : List Bytes} (hh : ∀ x ∈ hs, ∃ a, Ref x a) {h sha r : Bytes} (hr : Ref h sha)
    {ps : List Bytes} {rest : Bytes} :
    ¬ GitParents (parentLines hs ++ (b!"parent " ++ h ++ CR :: LF :: r)) ps rest := by
  have hlen : ∀ {x a : Bytes}, Ref x a → x.length = 40 := fun h => by rw [hexOf_length h.1, h.2]
  induction hs generalizing ps with
  | nil =>
    intro hg
    simp only [parentLines, List.map_nil, unlines_nil, List.nil_append] at hg
    generalize hb : b!"parent " ++ h ++ CR :: LF :: r = b at hg
    cases hg with
    | stop _ h1 =>
      subst hb
      rcases h1 with h1 | h1
      · exact h1 (by rw [List.append_assoc]; exact List.prefix_append _ _)
      · simp [hlen hr] at h1; omega
    | more h' sha' r2 _ ps h1 h2 =>
      have := after_ref hb hr h1
      exact absurd (List.cons.inj this).1 (by decide)
  | cons x hs ih =>
    intro hg
    have e : parentLines (x :: hs) ++ (b!"parent " ++ h ++ CR :: LF :: r) =
        b!"parent " ++ x ++ LF :: (parentLines hs ++ (b!"parent " ++ h ++ CR :: LF :: r)) := by
      simp [parentLines, unlines]
    rw [e] at hg
    obtain ⟨a, ha⟩ := hh x (by simp)
    generalize hb : b!"parent " ++ x ++ LF :: (parentLines hs ++ (b!"parent " ++ h ++ CR :: LF :: r)) = b at hg
    cases hg with
    | stop _ h1 =>
      subst hb
      rcases h1 with h1 | h1
      · exact h1 (by rw [List.append_assoc]; exact List.prefix_append _ _)
      · simp [hlen hr, hlen ha] at h1; omega
    | more h' sha' r2 _ ps h1 h2 =>
      have := after_ref hb ha h1
      simp only [List.cons.injEq, true_and] at this
      rw [← this] at h2
      exact ih (fun y hy => hh y (List.mem_cons_of_mem _ hy)) h2

/-- Of the commits that the package reads, git refuses exactly those that do not
begin with a line for the tree that ends in LF, and those with a line among the
first lines for parents that ends in CR LF. -/
theorem git_refuses {s : Stream} (hN : 49 ≤ s.bufsz) {c : Commit} (h : parseObject s = .ok (.commit c)) {d body : Bytes}
    (hd : NUL ∉ d) (hs : s.rest = b!"commit " ++ d ++ NUL :: body) :
    (∀ t ps rest, ¬ GitCommit body t ps rest) ↔
      (∀ x t r, Ref x t → body ≠ b!"tree " ++ x ++ LF :: r) ∨
      ∃ (x t : Bytes) (hs : List Bytes) (y sha r : Bytes), Ref x t ∧ (∀ x ∈ hs, ∃ a, Ref x a) ∧ Ref y sha ∧
        body = b!"tree " ++ x ++ LF :: (parentLines hs ++ (b!"parent " ++ y ++ CR :: LF :: r)) := by
  constructor
  · intro hno
    by_cases ht : ∃ x t r, Ref x t ∧ body = b!"tree " ++ x ++ LF :: r
    · obtain ⟨x, t, r, hx, rfl⟩ := ht
      obtain ⟨bs, m, hb, hc⟩ := commit_body (by omega) h hd hs
      obtain ⟨bs1, rfl, hb1⟩ := blocks_line (by omega) (line_ref (by omega) b!"tree " x t r (by decide) (by decide) hx)
        (by simp) (by simp [List.cons_prefix_cons]) (by simp [List.cons_prefix_cons]) hb
      have hpar := hc.parents
      have e : behind b!"parent " (plainLines (.line (b!"tree " ++ x) :: bs1)) = behind b!"parent " (plainLines bs1) :=
        (behind_app _ [b!"tree " ++ x] (plainLines bs1)).trans (by simp [behind, linesWith])
      rw [e] at hpar
      rcases git_parents_none hN hb1 hpar with ⟨ps, rest, hg⟩ | ⟨qs, y, sha, r', h1, h2, rfl⟩
      · exact (hno t ps rest ⟨x, r, hx, rfl, hg⟩).elim
      · exact .inr ⟨x, t, qs, y, sha, r', hx, h1, h2, rfl⟩
    · exact .inl fun x t r hx hb => ht ⟨x, t, r, hx, hb⟩
  · rintro (hno | ⟨x, t, hs, y, sha, r, hx, hh, hy, rfl⟩) t' ps rest ⟨x', r', hx', hb, hg⟩
    · exact hno x' t' r' hx' hb
    · have := after_ref hb hx hx'
      simp only [List.cons.injEq, true_and] at this
      rw [← this] at hg
      exact git_parents_cr hh hy hg

/-! ## The message of a commit -/

theorem line_le {N : Nat} (hN : 2 ≤ N) {b l r : Bytes} (h : Line N b l r) : r.length ≤ b.length :=
  Nat.le_of_lt (Line_lt hN h)

theorem sigBody_lt {N : Nat} (hN : 2 ≤ N) {b r : Bytes} {ls : List Bytes} (h : SigBody N b ls r) :
    r.length < b.length := by
  induction h with
  | stop b r h => exact Line_lt hN h
  | more b l r r' ls h _ _ ih => have := Line_lt hN h; omega

theorem mergeHead_lt {N : Nat} (hN : 2 ≤ N) {b r : Bytes} {ls : List Bytes} (h : MergeHead N b ls r) :
    r.length < b.length := by
  induction h with
  | stop b r h => exact Line_lt hN h
  | more b l r r' ls h _ _ ih => have := Line_lt hN h; omega

theorem mergeMsg_le {N : Nat} (hN : 2 ≤ N) {b r : Bytes} {ls : List Bytes} (h : MergeMsg N b ls r) :
    r.length ≤ b.length := by
  induction h with
  | stop => exact Nat.le_refl _
  | more b l r r' ls h _ _ ih => have := Line_lt hN h; omega

theorem blocks_message_le {N : Nat} (hN : 2 ≤ N) {b : Bytes} {bs : List Spec.Block} {m : Option Bytes}
    (h : Blocks N b bs m) : (m.getD []).length ≤ b.length := by
  induction h with
  | done => simp
  | blank b r h => exact line_le hN h
  | line b l r bs m h _ _ _ _ ih => have := Line_lt hN h; omega
  | sig b l r r' ls bs m h _ hl _ ih => have := Line_lt hN h; have := sigBody_lt hN hl; omega
  | merge b x r r1 r2 ls msg bs m h hh hl _ ih =>
    have := Line_lt hN h; have := mergeHead_lt hN hh; have := mergeMsg_le hN hl; omega
  | cut => simp

/-- The first line of header lines and what follows. -/
theorem first_line {N : Nat} (hN : 2 ≤ N) {ls : List Bytes} (hl : ∀ l ∈ ls, HeaderLine N l) {m l r : Bytes}
    (h : Line N (unlines ls ++ LF :: m) l r) :
    (ls = [] ∧ l = [] ∧ r = m) ∨ ∃ ls', ls = l :: ls' ∧ r = unlines ls' ++ LF :: m := by
  cases ls with
  | nil =>
    have h' : Line N ([] ++ LF :: m) [] m := .lf [] m (by simp) (by simp) (by simp; omega)
    obtain ⟨rfl, rfl⟩ := Line_unique hN h h'
    exact .inl ⟨rfl, rfl, rfl⟩
  | cons x ls =>
    rw [unlines_cons] at h
    obtain ⟨rfl, rfl⟩ := Line_unique hN h (line_header (hl x (by simp)) _)
    exact .inr ⟨ls, rfl, rfl⟩

theorem blank_line {N : Nat} (hN : 2 ≤ N) (m : Bytes) : Line N (LF :: m) [] m :=
  .lf [] m (by simp) (by simp) (by simp; omega)

theorem sigBody_within {N : Nat} (hN : 2 ≤ N) {b r : Bytes} {sl : List Bytes} (h : SigBody N b sl r) :
    ∀ {ls : List Bytes} {m : Bytes}, (∀ l ∈ ls, HeaderLine N l) → b = unlines ls ++ LF :: m →
      (∃ ls', ls = sl ++ sigEnd :: ls' ∧ sigEnd ∉ sl ∧ r = unlines ls' ++ LF :: m) ∨ r.length < m.length := by
  induction h with
  | stop b r h =>
    rintro ls m hl rfl
    rcases first_line hN hl h with ⟨_, h1, _⟩ | ⟨ls', rfl, rfl⟩
    · exact absurd h1 (by decide)
    · exact .inl ⟨ls', rfl, by simp, rfl⟩
  | more b l r r' sl h hne hr ih =>
    rintro ls m hl rfl
    rcases first_line hN hl h with ⟨_, _, rfl⟩ | ⟨ls', rfl, rfl⟩
    · exact .inr (sigBody_lt hN hr)
    · rcases ih (fun x hx => hl x (List.mem_cons_of_mem _ hx)) rfl with ⟨ls2, rfl, h2, h3⟩ | h2
      · refine .inl ⟨ls2, rfl, ?_, h3⟩
        simp only [List.mem_cons, not_or]
        exact ⟨fun h => hne h.symm, h2⟩
      · exact .inr h2

theorem mergeHead_within {N : Nat} (hN : 2 ≤ N) {b r : Bytes} {sl : List Bytes} (h : MergeHead N b sl r) :
    ∀ {ls : List Bytes} {m : Bytes}, (∀ l ∈ ls, HeaderLine N l) → b = unlines ls ++ LF :: m →
      (∃ ls', ls = sl ++ b!" " :: ls' ∧ b!" " ∉ sl ∧ r = unlines ls' ++ LF :: m) ∨ r.length < m.length := by
  induction h with
  | stop b r h =>
    rintro ls m hl rfl
    rcases first_line hN hl h with ⟨_, h1, _⟩ | ⟨ls', rfl, rfl⟩
    · exact absurd h1 (by decide)
    · exact .inl ⟨ls', rfl, by simp, rfl⟩
  | more b l r r' sl h hne hr ih =>
    rintro ls m hl rfl
    rcases first_line hN hl h with ⟨_, _, rfl⟩ | ⟨ls', rfl, rfl⟩
    · exact .inr (mergeHead_lt hN hr)
    · rcases ih (fun x hx => hl x (List.mem_cons_of_mem _ hx)) rfl with ⟨ls2, rfl, h2, h3⟩ | h2
      · refine .inl ⟨ls2, rfl, ?_, h3⟩
        simp only [List.mem_cons, not_or]
        exact ⟨fun h => hne h.symm, h2⟩
      · exact .inr h2

theorem mergeMsg_within {N : Nat} (hN : 2 ≤ N) {b r : Bytes} {sl : List Bytes} (h : MergeMsg N b sl r) :
    ∀ {ls : List Bytes} {m : Bytes}, (∀ l ∈ ls, HeaderLine N l) → b = unlines ls ++ LF :: m →
      ∃ ls', ls = sl ++ ls' ∧ (∀ l ∈ sl, l.head? = some SP) ∧ (∀ l, ls'.head? = some l → l.head? ≠ some SP) ∧
        r = unlines ls' ++ LF :: m := by
  induction h with
  | stop b l r h hne =>
    rintro ls m hl rfl
    refine ⟨ls, rfl, by simp, ?_, rfl⟩
    intro x hx
    rcases first_line hN hl h with ⟨rfl, _, rfl⟩ | ⟨ls', rfl, rfl⟩
    · simp at hx
    · simp only [List.head?_cons, Option.some.injEq] at hx
      exact hx ▸ hne
  | more b l r r' sl h hsp hr ih =>
    rintro ls m hl rfl
    rcases first_line hN hl h with ⟨_, rfl, _⟩ | ⟨ls', rfl, rfl⟩
    · simp at hsp
    · obtain ⟨ls2, rfl, h2, h3, h4⟩ := ih (fun x hx => hl x (List.mem_cons_of_mem _ hx)) rfl
      refine ⟨ls2, rfl, ?_, h3, h4⟩
      intro x hx
      rcases List.mem_cons.1 hx with rfl | hx
      · exact hsp
      · exact h2 x hx

theorem blocks_within {N : Nat} (hN : 2 ≤ N) {b : Bytes} {bs : List Spec.Block} {mo : Option Bytes}
    (h : Blocks N b bs mo) : ∀ {ls : List Bytes} {m : Bytes}, (∀ l ∈ ls, HeaderLine N l ∧ l ≠ []) →
      b = unlines ls ++ LF :: m → (Closed ls ∧ mo = some m) ∨ (mo.getD []).length < m.length ∨ m = [] ∧ mo.getD [] = [] := by
  induction h with
  | done => intro ls m hl h; simp at h
  | blank b r h =>
    rintro ls m hl rfl
    rcases first_line hN (fun l hx => (hl l hx).1) h with ⟨rfl, _, rfl⟩ | ⟨ls', rfl, rfl⟩
    · exact .inl ⟨.nil, rfl⟩
    · exact ((hl [] (by simp)).2 rfl).elim
  | line b l r bs mo h hne hm hg hr ih =>
    rintro ls m hl rfl
    rcases first_line hN (fun l hx => (hl l hx).1) h with ⟨rfl, rfl, rfl⟩ | ⟨ls', rfl, rfl⟩
    · exact (hne rfl).elim
    · rcases ih (fun x hx => hl x (List.mem_cons_of_mem _ hx)) rfl with ⟨h1, h2⟩ | h1
      · exact .inl ⟨.line l ls' hm hg h1, h2⟩
      · exact .inr h1
  | sig b l r r' sl bs mo h hg hs hr ih =>
    rintro ls m hl rfl
    rcases first_line hN (fun l hx => (hl l hx).1) h with ⟨rfl, rfl, rfl⟩ | ⟨ls', rfl, rfl⟩
    · simp at hg
    · rcases sigBody_within hN hs (fun x hx => (hl x (List.mem_cons_of_mem _ hx)).1) rfl with ⟨ls2, rfl, h2, rfl⟩ | h2
      · rcases ih (fun x hx => hl x (by simp [hx])) rfl with ⟨h3, h4⟩ | h3
        · exact .inl ⟨.sig l sl ls2 hg h2 h3, h4⟩
        · exact .inr h3
      · have := blocks_message_le hN hr
        exact .inr (.inl (by omega))
  | merge b x r r1 r2 sl msg bs mo h hh hs hr ih =>
    rintro ls m hl rfl
    rcases first_line hN (fun l hx => (hl l hx).1) h with ⟨rfl, h0, rfl⟩ | ⟨ls', rfl, rfl⟩
    · simp at h0
    · rcases mergeHead_within hN hh (fun x hx => (hl x (List.mem_cons_of_mem _ hx)).1) rfl with ⟨ls2, rfl, h2, rfl⟩ | h2
      · obtain ⟨ls3, rfl, h4, h5, rfl⟩ := mergeMsg_within hN hs (fun x hx => (hl x (by simp [hx])).1) rfl
        rcases ih (fun x hx => hl x (by simp [hx])) rfl with ⟨h6, h7⟩ | h6
        · exact .inl ⟨.merge x sl msg ls3 h2 h4 h5 h6, h7⟩
        · exact .inr h6
      · have := blocks_message_le hN hr
        have := mergeMsg_le hN hs
        exact .inr (.inl (by omega))
  | cut b x r sl h hh =>
    rintro ls m hl rfl
    cases m with
    | nil => exact .inr (.inr ⟨rfl, rfl⟩)
    | cons => exact .inr (.inl (by simp))

theorem sigBody_of {N : Nat} {sl : List Bytes} (hs : sigEnd ∉ sl) (hl : ∀ l ∈ sl, HeaderLine N l)
    (he : HeaderLine N sigEnd) (r : Bytes) : SigBody N (unlines (sl ++ [sigEnd]) ++ r) sl r := by
  induction sl with
  | nil => exact .stop _ _ (by rw [List.nil_append, unlines_cons]; exact line_header he _)
  | cons x sl ih =>
    rw [List.cons_append, unlines_cons]
    refine .more _ x _ _ _ (line_header (hl x (by simp)) _) (fun h => hs (by simp [h])) ?_
    exact ih (fun h => hs (List.mem_cons_of_mem _ h)) (fun l hx => hl l (List.mem_cons_of_mem _ hx))

theorem mergeHead_of {N : Nat} {sl : List Bytes} (hs : b!" " ∉ sl) (hl : ∀ l ∈ sl, HeaderLine N l)
    (he : HeaderLine N b!" ") (r : Bytes) : MergeHead N (unlines (sl ++ [b!" "]) ++ r) sl r := by
  induction sl with
  | nil => exact .stop _ _ (by rw [List.nil_append, unlines_cons]; exact line_header he _)
  | cons x sl ih =>
    rw [List.cons_append, unlines_cons]
    refine .more _ x _ _ _ (line_header (hl x (by simp)) _) (fun h => hs (by simp [h])) ?_
    exact ih (fun h => hs (List.mem_cons_of_mem _ h)) (fun l hx => hl l (List.mem_cons_of_mem _ hx))

theorem mergeMsg_of {N : Nat} (hN : 2 ≤ N) {sl ls : List Bytes} (hs : ∀ l ∈ sl, l.head? = some SP)
    (hl : ∀ l ∈ sl ++ ls, HeaderLine N l) (hn : ∀ l, ls.head? = some l → l.head? ≠ some SP) (m : Bytes) :
    MergeMsg N (unlines (sl ++ ls) ++ LF :: m) sl (unlines ls ++ LF :: m) := by
  induction sl with
  | nil =>
    cases ls with
    | nil => exact .stop _ [] m (blank_line hN m) (by simp)
    | cons x ls =>
      rw [List.nil_append, unlines_cons]
      exact .stop _ x _ (line_header (hl x (by simp)) _) (hn x rfl)
  | cons x sl ih =>
    rw [List.cons_append, unlines_cons]
    exact .more _ x _ _ _ (line_header (hl x (by simp)) _) (hs x (by simp))
      (ih (fun l hx => hs l (List.mem_cons_of_mem _ hx)) (fun l hx => hl l (List.mem_cons_of_mem _ hx)))

theorem blocks_closed {N : Nat} (hN : 2 ≤ N) {ls : List Bytes} (h : Closed ls) (m : Bytes)
    (hl : ∀ l ∈ ls, HeaderLine N l ∧ l ≠ []) : ∃ bs, Blocks N (unlines ls ++ LF :: m) bs (some m) := by
  induction h with
  | nil => exact ⟨[], .blank _ _ (blank_line hN m)⟩
  | line l ls hm hg _ ih =>
    obtain ⟨bs, hb⟩ := ih (fun x hx => hl x (List.mem_cons_of_mem _ hx))
    rw [unlines_cons]
    exact ⟨_, .line _ l _ bs _ (line_header (hl l (by simp)).1 _) (hl l (by simp)).2 hm hg hb⟩
  | sig l sl ls hg hs _ ih =>
    obtain ⟨bs, hb⟩ := ih (fun x hx => hl x (by simp [hx]))
    rw [unlines_cons]
    have e : unlines (sl ++ sigEnd :: ls) ++ LF :: m = unlines (sl ++ [sigEnd]) ++ (unlines ls ++ LF :: m) := by
      simp [unlines]
    rw [e]
    exact ⟨_, .sig _ l _ _ sl bs _ (line_header (hl l (by simp)).1 _) hg
      (sigBody_of hs (fun x hx => (hl x (by simp [hx])).1) (hl sigEnd (by simp)).1 _) hb⟩
  | merge x sl msg ls hh hm hn _ ih =>
    obtain ⟨bs, hb⟩ := ih (fun x hx => hl x (by simp [hx]))
    rw [unlines_cons]
    have e : unlines (sl ++ b!" " :: (msg ++ ls)) ++ LF :: m = unlines (sl ++ [b!" "]) ++ (unlines (msg ++ ls) ++ LF :: m) := by
      simp [unlines]
    rw [e]
    exact ⟨_, .merge _ x _ _ _ sl msg bs _ (line_header (hl _ (by simp)).1 _)
      (mergeHead_of hh (fun x hx => (hl x (by simp [hx])).1) (hl b!" " (by simp)).1 _)
      (mergeMsg_of hN hm (fun x hx => (hl x (by simp at hx ⊢; rcases hx with hx | hx <;> simp [hx])).1) hn m) hb⟩

/-- The package reads the same message as git exactly if every signature and merge
tag that begins before git's empty line is closed there, or the message is empty.
Else what it reads is shorter. -/
theorem git_message {s : Stream} (hN : 2 ≤ s.bufsz) {c : Commit} (h : parseObject s = .ok (.commit c)) {d body : Bytes}
    (hd : NUL ∉ d) (hs : s.rest = b!"commit " ++ d ++ NUL :: body) {ls : List Bytes} {m : Bytes}
    (hg : GitMessage body ls m) (hl : ∀ l ∈ ls, l.getLast? ≠ some CR ∧ l.length < s.bufsz) :
    (c.message = m ↔ Closed ls ∨ m = []) ∧ (c.message ≠ m → c.message.length < m.length) := by
  obtain ⟨bs, mo, hb, hc⟩ := commit_body hN h hd hs
  have hl' : ∀ l ∈ ls, HeaderLine s.bufsz l ∧ l ≠ [] := fun l hx =>
    ⟨⟨(hg.2 l hx).2, (hl l hx).1, (hl l hx).2⟩, (hg.2 l hx).1⟩
  rw [hc.message]
  have hw := blocks_within hN hb hl' hg.1
  refine ⟨⟨?_, ?_⟩, ?_⟩
  · rintro rfl
    rcases hw with ⟨h1, _⟩ | h1 | ⟨h1, _⟩
    · exact .inl h1
    · omega
    · exact .inr h1
  · rintro (h1 | rfl)
    · obtain ⟨bs', hb'⟩ := blocks_closed hN h1 m hl'
      rw [hg.1] at hb
      obtain ⟨_, rfl⟩ := blocks_unique hN hb hb'
      rfl
    · rcases hw with ⟨_, rfl⟩ | h1 | ⟨_, h1⟩
      · rfl
      · simp at h1
      · exact h1
  · intro hne
    rcases hw with ⟨_, rfl⟩ | h1 | ⟨rfl, h1⟩
    · exact (hne rfl).elim
    · exact h1
    · exact (hne h1).elim

/-! ## Tags -/

theorem last_iff (xs : List Bytes) (d : Bytes) : xs.getLast?.getD d = d ↔ ∀ x, xs.getLast? = some x → x = d := by
  cases xs.getLast? <;> simp [eq_comm]

theorem last_first (x d : Bytes) (xs : List Bytes) : (x :: xs).getLast?.getD d = xs.getLast?.getD x := by
  rw [List.getLast?_cons]; cases xs.getLast? <;> rfl

/-- If git reads a tag, the package reads the same object, type and name exactly
unless a further header line gives another. -/
theorem git_tag {s : Stream} (hN : 48 ≤ s.bufsz) {t : Tag} (h : parseObject s = .ok (.tag t)) {d body : Bytes}
    (hd : NUL ∉ d) (hs : s.rest = b!"tag " ++ d ++ NUL :: body) {o ty name rest : Bytes}
    (hg : GitTag body o ty name rest) (hn : HeaderLine s.bufsz (b!"tag " ++ name)) :
    ∃ ls m, Head s.bufsz rest ls m ∧ t.message = m.getD [] ∧
      (t.object = gitLink o ↔ ∀ x, (behind b!"object " ls).getLast? = some x → Ref x o) ∧
      (t.typ = ty ↔ ∀ x, (behind b!"type " ls).getLast? = some x → x = ty) ∧
      (t.tag = name ↔ ∀ x, (behind b!"tag " ls).getLast? = some x → x = name) := by
  obtain ⟨_, d', body', ls, m, hd', hs', hb, ht⟩ := (tag_accepts s (by omega) t).1 h
  rw [hs] at hs'
  simp only [List.append_assoc, List.append_cancel_left_eq] at hs'
  have h9 := splitAt_notin NUL d body hd
  rw [hs', splitAt_notin NUL d' _ hd'] at h9
  simp only [Option.some.injEq, Prod.mk.injEq] at h9
  rw [h9.2] at hb
  obtain ⟨x, hx, hty, hnl, rfl⟩ := hg
  have hl2 : HeaderLine s.bufsz (b!"type " ++ ty) := by
    simp only [List.mem_cons, List.not_mem_nil, or_false] at hty
    rcases hty with rfl | rfl | rfl | rfl <;> exact ⟨by decide, by decide, by simp; omega⟩
  obtain ⟨l1, rfl, hb1⟩ := head_line (by omega) (line_ref hN b!"object " x o _ (by decide) (by decide) hx) (by simp) hb
  obtain ⟨l2, rfl, hb2⟩ := head_line (by omega) (line_header hl2 _) (by simp) hb1
  obtain ⟨l3, rfl, hb3⟩ := head_line (by omega) (line_header hn _) (by simp) hb2
  have e : ∀ w, behind w ((b!"object " ++ x) :: (b!"type " ++ ty) :: (b!"tag " ++ name) :: l3) =
      behind w [b!"object " ++ x, b!"type " ++ ty, b!"tag " ++ name] ++ behind w l3 := fun w =>
    behind_app w [b!"object " ++ x, b!"type " ++ ty, b!"tag " ++ name] l3
  have e1 : behind b!"object " [b!"object " ++ x, b!"type " ++ ty, b!"tag " ++ name] = [x] := by simp [behind, linesWith]
  have e2 : behind b!"type " [b!"object " ++ x, b!"type " ++ ty, b!"tag " ++ name] = [ty] := by simp [behind, linesWith]
  have e3 : behind b!"tag " [b!"object " ++ x, b!"type " ++ ty, b!"tag " ++ name] = [name] := by simp [behind, linesWith]
  have h1 := ht.object
  have h2 := ht.typ
  have h3 := ht.tag
  rw [e, e1, List.singleton_append] at h1
  rw [e, e2] at h2
  rw [e, e3] at h3
  refine ⟨l3, m, hb3, ht.message, ?_, ?_, ?_⟩
  · rw [lastValue_iff (lastValue_first ⟨o, hx, rfl⟩ h1)]
    simp only [refLink_gitLink]
  · rw [h2, List.singleton_append, last_first, last_iff]
  · rw [h3, List.singleton_append, last_first, last_iff]

/-! ## Trees -/

theorem gitEntry_ok {e : Entry} (h : GitEntry e) : EntryOk e := by
  refine ⟨fun hm => ?_, h.name.2, h.sha⟩
  have := (h.mode.2 _ hm).1
  exact absurd this (by decide)

/-- A name that repeats one before it, with none before that. -/
theorem first_repeat : ∀ (pre es : List Entry), (pre.map (·.name)).Nodup → ¬ ((pre ++ es).map (·.name)).Nodup →
    ∃ xs x ys, pre ++ es = xs ++ x :: ys ∧ (xs.map (·.name)).Nodup ∧ x.name ∈ xs.map (·.name)
  | pre, [], hp, h => by simp at h; exact (h (by simpa using hp)).elim
  | pre, e :: es, hp, h => by
    by_cases he : e.name ∈ pre.map (·.name)
    · exact ⟨pre, e, es, rfl, hp, he⟩
    · have hp' : ((pre ++ [e]).map (·.name)).Nodup := by
        rw [List.map_append, List.nodup_append]
        refine ⟨hp, by simp, ?_⟩
        intro a ha b hb
        simp only [List.map_cons, List.map_nil, List.mem_singleton] at hb
        rintro rfl
        exact he (hb ▸ ha)
      have e1 : pre ++ e :: es = (pre ++ [e]) ++ es := by simp
      rw [e1] at h ⊢
      exact first_repeat _ _ hp' h

/-- A tree that git reads is read by the package with the same entries, or refused
if a name is repeated. -/
theorem git_tree {d : Bytes} {z : Int} (hd : SizeField d z) {body : Bytes} {es : List Entry} (hg : GitTree body es)
    (N : Nat) (hN : 2 ≤ N) :
    ((es.map (·.name)).Nodup → ∃ t, parseObject (σ := Stream) ⟨b!"tree " ++ d ++ NUL :: body, .eof, N⟩ = .ok (.tree t) ∧
      t.t = es.map Entry.row) ∧
    (¬ (es.map (·.name)).Nodup →
      parseObject (σ := Stream) ⟨b!"tree " ++ d ++ NUL :: body, .eof, N⟩ = .err .repeatedKey) := by
  obtain ⟨rfl, he⟩ := hg
  constructor
  · intro hn
    refine (tree_accepts ⟨b!"tree " ++ d ++ NUL :: treeBody es, .eof, N⟩ _).2
      ⟨rfl, d, z, es, [], hd, by simp, ⟨fun e h => gitEntry_ok (he e h), hn⟩, .inl (by simp), rfl⟩
  · intro hn
    rw [refused_because _ N hN]
    obtain ⟨xs, x, ys, hes, h1, h2⟩ := first_repeat [] es (by simp) hn
    rw [List.nil_append] at hes
    subst hes
    have := Faulty.repeated (N := N) d z xs x (treeBody ys) hd
      ⟨fun e h => gitEntry_ok (he e (by simp [h])), h1⟩ (gitEntry_ok (he x (by simp))) h2
    simpa [treeBody] using this

/-! ## Cases -/

namespace GitReadExample

def refA : Bytes := b!"aaaaaaaaaaaaaaaaaaaaaaaaaaaaaaaaaaaaaaaa"
def refB : Bytes := b!"bbbbbbbbbbbbbbbbbbbbbbbbbbbbbbbbbbbbbbbb"

theorem ref_a : Ref refA (List.replicate 20 0xaa) := (hexDecode_iff _ _).1 (by decide +kernel) |> (⟨·, by decide⟩)
theorem ref_b : Ref refB (List.replicate 20 0xbb) := (hexDecode_iff _ _).1 (by decide +kernel) |> (⟨·, by decide⟩)

/-- Git reads one parent, the package two: one is behind another header. -/
def rest : Bytes := b!"author A <a> 1 +0000\ncommitter A <a> 1 +0000\nparent " ++ refB ++ b!"\n\nhi\n"

theorem git_reads : GitCommit (b!"tree " ++ refA ++ LF :: (b!"parent " ++ refA ++ LF :: rest))
    (List.replicate 20 0xaa) [List.replicate 20 0xaa] rest :=
  ⟨refA, _, ref_a, rfl, .more refA _ _ _ _ ref_a (.stop _ (.inl (by simp [rest, List.cons_prefix_cons])))⟩

/-- The references of what is read, and its message. -/
def seen (body : Bytes) : Option (Link × List Link × Bytes) :=
  match parseObject (σ := Stream) ⟨b!"commit 0" ++ NUL :: body, .eof, 4096⟩ with
  | .ok (.commit c) => some (c.tree, c.parents, c.message)
  | _ => none

example : seen (b!"tree " ++ refA ++ LF :: (b!"parent " ++ refA ++ LF :: rest)) =
    some (gitLink (List.replicate 20 0xaa), [gitLink (List.replicate 20 0xaa), gitLink (List.replicate 20 0xbb)], b!"hi\n") := by
  decide +kernel

/-- A second tree replaces the one that git reads. -/
example : seen (b!"tree " ++ refA ++ LF :: (b!"x\ntree " ++ refB ++ b!"\n\nhi")) =
      some (gitLink (List.replicate 20 0xbb), [], b!"hi") ∧
    GitCommit (b!"tree " ++ refA ++ LF :: (b!"x\ntree " ++ refB ++ b!"\n\nhi")) (List.replicate 20 0xaa) []
      (b!"x\ntree " ++ refB ++ b!"\n\nhi") :=
  ⟨by decide +kernel, refA, _, ref_a, rfl, .stop _ (.inl (by simp [List.cons_prefix_cons]))⟩

/-- A parent at the end of the text, without LF: git does not read it. -/
example : seen (b!"tree " ++ refA ++ LF :: (b!"parent " ++ refB)) =
      some (gitLink (List.replicate 20 0xaa), [gitLink (List.replicate 20 0xbb)], []) ∧
    GitCommit (b!"tree " ++ refA ++ LF :: (b!"parent " ++ refB)) (List.replicate 20 0xaa) [] (b!"parent " ++ refB) :=
  ⟨by decide +kernel, refA, _, ref_a, rfl, .stop _ (.inr (by decide))⟩

/-- A parent that ends in CR LF: git refuses the commit. -/
example : seen (b!"tree " ++ refA ++ LF :: (b!"parent " ++ refB ++ CR :: LF :: b!"\nhi")) =
    some (gitLink (List.replicate 20 0xaa), [gitLink (List.replicate 20 0xbb)], b!"hi") := by
  decide +kernel

/-- An empty line within a signature: for git the message begins there. -/
def signed : List Bytes := [b!"tree " ++ refA, b!"gpgsig -----BEGIN PGP SIGNATURE-----", b!" "]

example : GitMessage (unlines signed ++ LF :: b!" -----END PGP SIGNATURE-----\n\nhi") signed
      b!" -----END PGP SIGNATURE-----\n\nhi" ∧
    seen (unlines signed ++ LF :: b!" -----END PGP SIGNATURE-----\n\nhi") =
      some (gitLink (List.replicate 20 0xaa), [], b!"hi") :=
  ⟨⟨rfl, by decide +kernel⟩, by decide +kernel⟩

example : Closed [b!"tree " ++ refA, b!"gpgsig -----BEGIN PGP SIGNATURE-----", b!" ", b!" -----END PGP SIGNATURE-----"] :=
  .line _ _ (by simp [List.cons_prefix_cons]) (by simp [List.cons_prefix_cons])
    (.sig _ [b!" "] [] (by simp [List.cons_prefix_cons]) (by decide) .nil)

/-- A tag with a second object. -/
example : GitTag (b!"object " ++ refA ++ LF :: (b!"type commit" ++ LF :: (b!"tag v1" ++ LF :: (b!"object " ++ refB ++ b!"\n\nhi"))))
    (List.replicate 20 0xaa) b!"commit" b!"v1" (b!"object " ++ refB ++ b!"\n\nhi") :=
  ⟨refA, ref_a, by simp, by decide, rfl⟩

example : (match parseObject (σ := Stream) ⟨b!"tag 0" ++ NUL :: (b!"object " ++ refA ++ LF :: (b!"type commit" ++ LF ::
      (b!"tag v1" ++ LF :: (b!"object " ++ refB ++ b!"\n\nhi")))), .eof, 4096⟩ with
    | .ok (.tag t) => some t.object
    | _ => none) = some (gitLink (List.replicate 20 0xbb)) := by decide +kernel

/-- A tree that git reads, with a repeated name. -/
example : GitTree (treeBody [⟨b!"100644", b!"a", List.replicate 20 1⟩, ⟨b!"40000", b!"a", List.replicate 20 2⟩])
    [⟨b!"100644", b!"a", List.replicate 20 1⟩, ⟨b!"40000", b!"a", List.replicate 20 2⟩] :=
  ⟨rfl, by
    intro e he
    simp only [List.mem_cons, List.not_mem_nil, or_false] at he
    rcases he with rfl | rfl <;> exact ⟨⟨by decide, by decide⟩, ⟨by decide, by decide⟩, by decide⟩⟩

end GitReadExample

end Verif.Props
