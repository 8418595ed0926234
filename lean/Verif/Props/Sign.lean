import Verif.Spec.Verify
import Verif.Props.Verify
import Verif.Props.Built

/-!
# C113 How a client signs a commit
-/

namespace Verif.Props

open Verif Spec

/-- What is written with another signature. -/
theorem resigned {c : Commit} {enc : Bytes} (e : encCommit c = .ok enc) (hm : ∀ t ∈ c.mergetag, Finished t.message) :
    ∃ pre, Finished pre ∧ ∀ x, encCommit { c with signature := x } =
      .ok (withHeader b!"commit" (pre ++ (sigText x ++ unlines c.other) ++ LF :: c.message)) := by
  unfold encCommit at e
  obtain ⟨th, h1, e⟩ := Res.bind_eq_ok.1 e
  obtain ⟨ps, h2, e⟩ := Res.bind_eq_ok.1 e
  obtain ⟨au, h3, e⟩ := Res.bind_eq_ok.1 e
  obtain ⟨co, h4, e⟩ := Res.bind_eq_ok.1 e
  obtain ⟨ms, h5, e⟩ := Res.bind_eq_ok.1 e
  obtain ⟨hs, _, rfl⟩ := encParents_lines h2
  refine ⟨(b!"tree " ++ hex th ++ [LF]) ++ parentLines (hs.map hex) ++ (b!"author " ++ au ++ [LF]) ++
    (b!"committer " ++ co ++ [LF]) ++ encodingText c.encoding ++ ms, ?_, ?_⟩
  · obtain ⟨zs, rfl, _⟩ := encMergeTags_blocks h5
    exact finished_app (finished_app (finished_app (finished_app (finished_app (finished_line _) (finished_unlines _))
      (finished_line _)) (finished_line _)) (finished_encoding _)) (finished_blocks hm zs)
  · intro x
    unfold encCommit
    simp only [h1, h2, h3, h4, h5, Res.bind_ok]
    show Res.ok _ = Res.ok _
    congr 2
    simp only [encodingText, sigText, encOther, unlines, sigBegin, sigEnd, hex_eq]
    cases c.encoding <;> cases x <;> simp

theorem lines_inj {xs ys : List Bytes} (hx : ∀ l ∈ xs, LF ∉ l) (hy : ∀ l ∈ ys, LF ∉ l) (h : unlines xs = unlines ys) :
    xs = ys := by
  induction xs generalizing ys with
  | nil =>
    cases ys with
    | nil => rfl
    | cons y ys => simp [unlines] at h
  | cons x xs ih =>
    cases ys with
    | nil => simp [unlines] at h
    | cons y ys =>
      have h' : x ++ LF :: unlines xs = y ++ LF :: unlines ys := by simpa [unlines] using h
      obtain ⟨rfl, h2⟩ := split_first h' (hx x (by simp)) (hy y (by simp))
      rw [ih (fun l hl => hx l (by simp [hl])) (fun l hl => hy l (by simp [hl])) h2]

theorem payload_app (s : SigPlace) (xs ys : List Bytes) :
    payloadLines s (xs ++ ys) = payloadLines s xs ++ payloadLines (xs.foldl sigPlace s) ys := by
  induction xs generalizing s with
  | nil => rfl
  | cons x xs ih => simp only [List.cons_append, payloadLines, ih, List.foldl_cons, List.append_assoc]

theorem payload_le (s : SigPlace) (xs : List Bytes) : (payloadLines s xs).length ≤ xs.length := by
  induction xs generalizing s with
  | nil => exact Nat.le_refl _
  | cons x xs ih =>
    have := ih (sigPlace s x)
    rw [payloadLines, List.length_append, List.length_cons]
    split <;> simp <;> omega

theorem payload_all {s : SigPlace} {xs : List Bytes} (h : (payloadLines s xs).length = xs.length) :
    (∀ l ∈ xs, ¬ b!"gpgsig" <+: l) ∧ (s ≠ .none → ∀ l, xs.head? = some l → l.head? ≠ some SP) := by
  induction xs generalizing s with
  | nil => simp
  | cons x xs ih =>
    have hle := payload_le (sigPlace s x) xs
    rw [payloadLines, List.length_append, List.length_cons] at h
    by_cases hp : sigPlace s x = .none
    · rw [if_pos hp] at h
      have := ih (s := sigPlace s x) (by simp at h; omega)
      have h1 : ¬ b!"gpgsig" <+: x := by
        intro hpre
        unfold sigPlace at hp
        split at hp
        · cases hp
        · cases hp
      refine ⟨?_, ?_⟩
      · intro l hl
        rcases List.mem_cons.1 hl with rfl | hl
        · exact h1
        · exact this.1 l hl
      · intro hs l hl hsp
        simp only [List.head?_cons, Option.some.injEq] at hl
        subst hl
        unfold sigPlace at hp
        split at hp
        · cases hp
        · first
          | exact hs hp
          | (split at hp
             · cases hp
             · exact hs (by simpa [hsp] using hp))
    · rw [if_neg hp] at h
      simp at h
      omega

theorem payload_mem (s : SigPlace) (xs : List Bytes) : ∀ l ∈ payloadLines s xs, l ∈ xs := by
  induction xs generalizing s with
  | nil => simp [payloadLines]
  | cons x xs ih =>
    intro l hl
    rw [payloadLines, List.mem_append] at hl
    rcases hl with hl | hl
    · split at hl
      · rw [List.mem_singleton.1 hl]; simp
      · simp at hl
    · exact List.mem_cons_of_mem _ (ih _ l hl)

theorem payload_header (s : SigPlace) (ls : List Bytes) :
    payloadLines s (sigHeaderLines (some (.pgp, ls))) = [] ∧
      (sigHeaderLines (some (.pgp, ls))).foldl sigPlace s = .sig := by
  have hp : b!"gpgsig " <+: b!"gpgsig " ++ SigFormat.first .pgp := List.prefix_append _ _
  have hi : sigPlace s (b!"gpgsig " ++ SigFormat.first .pgp) = .sig := by unfold sigPlace; rw [if_pos hp]
  have hsp : ∀ xs : List Bytes, (xs.map (SP :: ·)).foldl sigPlace .sig = .sig := by
    intro xs
    induction xs with
    | nil => rfl
    | cons x xs ih =>
      have h2 : ¬ b!"gpgsig " <+: SP :: x := spaced_prefix _ _ _ (by decide)
      have h1 : ¬ b!"gpgsig" <+: SP :: x := spaced_prefix _ _ _ (by decide)
      have hi : sigPlace .sig (SP :: x) = .sig := by
        unfold sigPlace
        rw [if_neg h2, if_neg h1]
        exact if_pos rfl
      rw [List.map_cons, List.foldl_cons, hi, ih]
  constructor
  · rw [sigHeaderLines, payloadLines, hi, if_neg (by decide)]
    have := (payload_spaced (ls ++ [SigFormat.last .pgp]) []).1
    rw [List.append_nil] at this
    rw [this]
    rfl
  · rw [sigHeaderLines, List.foldl_cons, hi, hsp]

theorem sigText_lines (ls : List Bytes) :
    sigText (some (unlines (ls.map (SP :: ·)))) = unlines (sigHeaderLines (some (.pgp, ls))) := by
  have e1 : sigBegin = b!"gpgsig " ++ SigFormat.first .pgp := by decide +kernel
  have e2 : sigEnd = SP :: SigFormat.last .pgp := by decide +kernel
  simp only [sigText, sigHeaderLines, e1, e2, List.map_append, List.map_cons, List.map_nil]
  simp [unlines]

/-- A commit without signature is written, and git has its message. The client hands the
body to the signing program and sets the field to the lines of the signature between the
first and the last, each with a space before it. Then git finds this signature of this
body exactly if no header line begins like a signature, and no space is at the beginning
of the unknown headers. -/
theorem sign_built {c : Commit} (hn : c.signature = none) {enc body : Bytes} (e : encCommit c = .ok enc)
    (hb : Framed b!"commit" body enc) (hm : ∀ t ∈ c.mergetag, Finished t.message)
    {hs : List Bytes} (hg : GitMessage body hs c.message) {ls : List Bytes} (hl : ∀ l ∈ ls, LF ∉ l) :
    ∃ enc' body', encCommit { c with signature := some (unlines (ls.map (SP :: ·))) } = .ok enc' ∧
      Framed b!"commit" body' enc' ∧
      (GitSigned body' body (armourText .pgp ls) ↔
        (∀ l ∈ hs, ¬ b!"gpgsig" <+: l) ∧ ∀ o, c.other.head? = some o → o.head? ≠ some SP) := by
  obtain ⟨pre, hpre, hw⟩ := resigned e hm
  have h0 := hw none
  have hc : ({ c with signature := none } : Commit) = c := by rw [← hn]
  rw [hc, e, framed_eq hb] at h0
  have hbody := withHeader_inj (Res.ok.inj h0)
  obtain ⟨P, rfl, hP⟩ := finished_lines hpre
  obtain ⟨O, hO, hO'⟩ := finished_lines (finished_unlines c.other)
  have hPO : hs = P ++ O := by
    refine lines_inj (fun l h => (hg.2 l h).2) (fun l h => (List.mem_append.1 h).elim (hP l) (hO' l)) ?_
    have := hg.1
    rw [hbody] at this
    have := List.append_cancel_right this
    rw [← this, hO, unlines_append]
    rfl
  subst hPO
  refine ⟨_, _, hw _, framed_withHeader _ _, ?_⟩
  have hb2 : unlines P ++ (sigText (some (unlines (ls.map (SP :: ·)))) ++ unlines c.other) ++ LF :: c.message =
      unlines (P ++ (sigHeaderLines (some (.pgp, ls)) ++ O)) ++ LF :: c.message := by
    have := hO
    have hs := sigText_lines ls
    rw [unlines_append, unlines_append, ← hO, hs]
  have hb1 : body = unlines (P ++ O) ++ LF :: c.message := by
    rw [hbody, hO, unlines_append]; rfl
  rw [hb2]
  have hhead : (∀ o, c.other.head? = some o → o.head? ≠ some SP) ↔ ∀ l, O.head? = some l → l.head? ≠ some SP := by
    cases hoo : c.other with
    | nil =>
      rw [hoo] at hO
      cases O with
      | nil => simp
      | cons l O => simp [unlines] at hO
    | cons o os =>
      rw [hoo] at hO
      cases O with
      | nil => simp [unlines] at hO
      | cons l O =>
        have hl' := hg.2 l (by simp)
        have hO2 : o ++ LF :: unlines os = l ++ LF :: unlines O := by simpa [unlines] using hO
        have : o.head? = l.head? := by
          cases l with
          | nil => exact absurd rfl hl'.1
          | cons d l =>
            cases o with
            | nil =>
              simp only [List.nil_append, List.cons_append, List.cons.injEq] at hO2
              exact absurd (by rw [hO2.1]; simp) hl'.2
            | cons d' o =>
              simp only [List.cons_append, List.cons.injEq] at hO2
              simp [hO2.1]
        simp [this]
  rw [hhead]
  have hclean : ∀ xs : List Bytes, (∀ l ∈ xs, l ∈ P ++ O) → (∀ l ∈ P ++ O, ¬ b!"gpgsig" <+: l) → ∀ l ∈ xs, CleanLine l :=
    fun xs h1 h2 l hl' => ⟨(hg.2 l (h1 l hl')).1, (hg.2 l (h1 l hl')).2, h2 l (h1 l hl')⟩
  constructor
  · intro h
    obtain ⟨ls', msg', h1, h2, h3, _⟩ := h
    have hall : ∀ l ∈ P ++ (sigHeaderLines (some (.pgp, ls)) ++ O), l ≠ [] ∧ LF ∉ l := by
      intro l hl'
      rw [List.mem_append, List.mem_append] at hl'
      rcases hl' with hl' | hl' | hl'
      · exact hg.2 l (by simp [hl'])
      · exact sigLines_clean hl l hl'
      · exact hg.2 l (by simp [hl'])
    have hpay : payloadLines .none (P ++ (sigHeaderLines (some (.pgp, ls)) ++ O)) = P ++ O := by
      have hu := (verify_unique (p' := body) ⟨_, _, hall, rfl, rfl, rfl⟩ ⟨ls', msg', h1, h2, h3, rfl⟩).1
      rw [hb1] at hu
      refine lines_inj ?_ (fun l h => (hg.2 l h).2) (List.append_cancel_right hu)
      intro l hl'
      exact (hall l (payload_mem _ _ l hl')).2
    have hsig : payloadLines (P.foldl sigPlace .none) (sigHeaderLines (some (.pgp, ls))) = [] ∧
        (sigHeaderLines (some (.pgp, ls))).foldl sigPlace (P.foldl sigPlace .none) = .sig := payload_header _ _
    rw [payload_app, payload_app, hsig.1, hsig.2, List.nil_append] at hpay
    have hlen := congrArg List.length hpay
    rw [List.length_append, List.length_append] at hlen
    have hp1 := payload_le .none P
    have hp2 := payload_le .sig O
    obtain ⟨q1, _⟩ := payload_all (s := .none) (xs := P) (by omega)
    obtain ⟨q2, q3⟩ := payload_all (s := .sig) (xs := O) (by omega)
    exact ⟨fun l hl' => (List.mem_append.1 hl').elim (q1 l) (q2 l), q3 (by decide)⟩
  · rintro ⟨h1, h2⟩
    rw [hb1]
    exact lines_signed hl P O c.message (hclean P (fun l h => by simp [h]) h1) (hclean O (fun l h => by simp [h]) h1) h2

/-- Whatever the field is set to, git finds a PGP signature. -/
theorem sign_pgp_only {c : Commit} (hn : c.signature = none) {enc body : Bytes} (e : encCommit c = .ok enc)
    (hb : Framed b!"commit" body enc) (hm : ∀ t ∈ c.mergetag, Finished t.message)
    {hs : List Bytes} (hg : GitMessage body hs c.message) (hs' : ∀ l ∈ hs, ¬ b!"gpgsig" <+: l)
    (x : Bytes) {enc' body' : Bytes} (e' : encCommit { c with signature := some x } = .ok enc')
    (hb' : Framed b!"commit" body' enc') {payload sig : Bytes} (h : GitSigned body' payload sig) :
    (∃ r, sig = SigFormat.first .pgp ++ LF :: r) ∧ ∀ f ls, sig = armourText f ls → f = .pgp := by
  obtain ⟨pre, hpre, hw⟩ := resigned e hm
  have h0 := hw none
  have hc : ({ c with signature := none } : Commit) = c := by rw [← hn]
  rw [hc, e, framed_eq hb] at h0
  have hbody := withHeader_inj (Res.ok.inj h0)
  obtain ⟨P, rfl, hP⟩ := finished_lines hpre
  obtain ⟨O, hO, hO'⟩ := finished_lines (finished_unlines c.other)
  have hPO : hs = P ++ O := by
    refine lines_inj (fun l h => (hg.2 l h).2) (fun l h => (List.mem_append.1 h).elim (hP l) (hO' l)) ?_
    have := hg.1
    rw [hbody] at this
    have := List.append_cancel_right this
    rw [← this, hO, unlines_append]
    rfl
  subst hPO
  rw [hw (some x)] at e'
  have hb2 : body' = unlines P ++ (sigText (some x) ++ unlines c.other) ++ LF :: c.message :=
    withHeader_inj ((framed_eq hb').symm.trans (Res.ok.inj e').symm)
  have hb3 : body' = unlines (P ++ [sigBegin]) ++ (x ++ unlines [sigEnd] ++ unlines c.other ++ LF :: c.message) := by
    rw [hb2, unlines_append]
    simp [sigText]
  obtain ⟨ls', msg', h1, h2, _, h4⟩ := h
  have hall : ∀ l ∈ P ++ [sigBegin], l ≠ [] ∧ LF ∉ l := by
    intro l hl'
    rcases List.mem_append.1 hl' with hl' | hl'
    · exact hg.2 l (by simp [hl'])
    · rw [List.mem_singleton.1 hl']
      decide +kernel
  obtain ⟨post, rfl⟩ := front_of_lines hall (hb3.symm.trans h2) h1
  have hsig : signatureLines .none (P ++ [sigBegin] ++ post) = SigFormat.first .pgp :: signatureLines .sig post := by
    rw [List.append_assoc, (payload_plain (s := .none) P ([sigBegin] ++ post) (fun l h => hs' l (by simp [h])) rfl).2]
    have e1 : sigBegin = b!"gpgsig " ++ SigFormat.first .pgp := by decide +kernel
    have hp : b!"gpgsig " <+: sigBegin := by rw [e1]; exact List.prefix_append _ _
    have hi : sigPlace .none sigBegin = .sig := by unfold sigPlace; rw [if_pos hp]
    rw [List.singleton_append, signatureLines, hi, if_pos rfl, if_pos hp]
    have : sigBegin.drop 7 = SigFormat.first .pgp := by decide +kernel
    rw [this]
    rfl
  have hs2 : sig = SigFormat.first .pgp ++ LF :: unlines (signatureLines .sig post) := by
    rw [h4, hsig]; simp [unlines]
  refine ⟨⟨_, hs2⟩, ?_⟩
  intro f ls hf
  have : SigFormat.first .pgp ++ LF :: unlines (signatureLines .sig post) = f.first ++ LF :: unlines (ls ++ [f.last]) := by
    rw [← hs2, hf]; simp [armourText, unlines]
  have := (split_first this (by decide) (by cases f <;> decide)).1
  cases f with
  | pgp => rfl
  | x509 => exact absurd this (by decide)
  | ssh => exact absurd this (by decide)

namespace SignExample

/-- A commit with a merged tag and an unknown header. -/
def toSign : Commit := { BuiltExample.plain with signature := none }

def headers : List Bytes :=
  [b!"tree 0303030303030303030303030303030303030303", b!"parent 0202020202020202020202020202020202020202",
   b!"author A <a> 1 +0000", b!"committer A <a> 1 +0000", b!"encoding latin1",
   b!"mergetag object 0202020202020202020202020202020202020202", b!" type commit", b!" tag v1", b!" tagger A <a> 1 +0000",
   b!" ", b!" m", b!"x y"]

theorem encodes : encCommit toSign = .ok (withHeader b!"commit" (unlines headers ++ LF :: toSign.message)) := by
  decide +kernel

/-- Git finds the signature. -/
example : ∃ enc' body', encCommit { toSign with signature := some (unlines (pgpLines.map (SP :: ·))) } = .ok enc' ∧
    Framed b!"commit" body' enc' ∧
    GitSigned body' (unlines headers ++ LF :: toSign.message) (armourText .pgp pgpLines) := by
  obtain ⟨enc', body', h1, h2, h3⟩ := sign_built (c := toSign) rfl encodes (framed_withHeader _ _)
    (fun t ht => by rw [show t = _ from List.mem_singleton.1 ht]; exact .inr rfl)
    (hs := headers) ⟨rfl, by decide +kernel⟩ (ls := pgpLines) (by decide)
  exact ⟨enc', body', h1, h2, h3.2 ⟨by decide +kernel, by decide +kernel⟩⟩

/-- Not so if the unknown headers begin with a space: it becomes part of the signature. -/
example : ¬ ∀ o, ({ toSign with other := [b!" y"] } : Commit).other.head? = some o → o.head? ≠ some SP := by
  intro h
  exact h b!" y" rfl rfl

end SignExample

end Verif.Props
