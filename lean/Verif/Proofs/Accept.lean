import Verif.Proofs.Ground
import Verif.Spec.Accept

/-!
# Lines, persons and references read by the decoder
-/

namespace Verif

open Spec

/-! ## lines -/

theorem readLine_Line (s s' : Stream) (l : Bytes) (h : Stream.readLine s = .ok (l, s'))
    (hN : 2 ≤ s.bufsz) : Line s.bufsz s.rest l s'.rest := by
  unfold Stream.readLine at h
  split at h
  · simp at h
  · rename_i c cs hs
    have hne : s.rest ≠ [] := by rw [hs]; simp
    clear hs
    split at h
    · rename_i a b he
      obtain ⟨hab, hlf⟩ := splitAt_some _ _ _ _ he
      have hlen : a.length < s.bufsz := by
        have := congrArg List.length hab
        simp only [List.length_take, List.length_append, List.length_cons] at this
        omega
      have hrest : s.rest = a ++ LF :: s.rest.drop (a.length + 1) := by
        have h1 := List.take_append_drop s.bufsz s.rest
        rw [hab] at h1
        rw [← h1]
        simp
      simp only [Res.ok.injEq, Prod.mk.injEq] at h
      obtain ⟨rfl, rfl⟩ := h
      simp only
      generalize s.rest.drop (a.length + 1) = r at hrest
      rw [hrest]
      unfold dropCR
      split
      · rename_i hc
        obtain ⟨a', rfl⟩ : ∃ a', a = a' ++ [CR] := by
          rw [List.getLast?_eq_some_iff] at hc; exact hc
        simp only [List.dropLast_concat, List.append_assoc, List.cons_append, List.nil_append]
        exact .crlf _ _ (fun hm => hlf (by simp [hm])) (by simpa using hlen)
      · rename_i hc
        exact .lf _ _ hlf hc hlen
    · rename_i he
      have hlf := (splitAt_none _ _).1 he
      split at h
      · rename_i hle
        simp only at h
        have htl : (s.rest.take s.bufsz).length = s.bufsz := by simp; omega
        split at h
        · rename_i hc
          simp only [Res.ok.injEq, Prod.mk.injEq] at h
          obtain ⟨rfl, rfl⟩ := h
          obtain ⟨a, ha⟩ := List.getLast?_eq_some_iff.1 hc
          have h1 := List.take_append_drop s.bufsz s.rest
          rw [ha] at h1 htl hlf
          have htl' : a.length + 1 = s.bufsz := by simpa using htl
          rw [ha]
          generalize s.rest.drop s.bufsz = r at h1
          have hb : s.bufsz - 1 = a.length := by omega
          simp only [List.dropLast_concat, hb, ← h1]
          simp only [List.append_assoc, List.cons_append, List.nil_append, List.drop_left]
          exact .fullCR _ _ (fun hm => hlf (by simp [hm])) htl'
        · rename_i hc
          simp only [Res.ok.injEq, Prod.mk.injEq] at h
          obtain ⟨rfl, rfl⟩ := h
          have := Line.full (N := s.bufsz) (s.rest.take s.bufsz) (s.rest.drop s.bufsz) hlf hc htl
          rwa [List.take_append_drop] at this
      · rename_i hle
        simp only [Res.ok.injEq, Prod.mk.injEq] at h
        obtain ⟨rfl, rfl⟩ := h
        rw [List.take_of_length_le (by omega)] at hlf
        exact .last _ hne hlf (by omega)

theorem Line_readLine {N : Nat} {b l r : Bytes} (e : Err) (hN : 2 ≤ N) (h : Line N b l r) :
    Stream.readLine ⟨b, e, N⟩ = .ok (l, ⟨r, e, N⟩) := by
  cases h with
  | lf _ _ h hc hs => exact Stream.readLine_line r e ⟨h, hc, hs⟩
  | crlf _ _ h hs =>
    have hne : ∃ c cs, l ++ CR :: LF :: r = c :: cs := by
      cases l with
      | nil => exact ⟨_, _, rfl⟩
      | cons c cs => exact ⟨_, _, rfl⟩
    obtain ⟨c, cs, hcs⟩ := hne
    have htake : (l ++ CR :: LF :: r).take N = (l ++ [CR]) ++ LF :: r.take (N - l.length - 2) := by
      rw [List.take_append, List.take_of_length_le (by omega)]
      have : N - l.length = (N - l.length - 2) + 1 + 1 := by omega
      rw [this]; simp
    unfold Stream.readLine
    simp only [hcs]
    rw [← hcs, htake, splitAt_notin _ _ _ (by simp [h]; decide)]
    have hd : l ++ CR :: LF :: r = (l ++ [CR, LF]) ++ r := by simp
    have hk : (l ++ [CR]).length + 1 = (l ++ [CR, LF]).length := by simp
    simp only [hd, hk, List.drop_left]
    simp [dropCR]
  | last _ hne h hs => exact Stream.readLine_last e hne h hs
  | full _ _ h hc hs =>
    cases hl : l with
    | nil => simp [hl] at hs; omega
    | cons c cs =>
      rw [← hl]
      have hcs : l ++ r = c :: (cs ++ r) := by simp [hl]
      have htake : (l ++ r).take N = l := by rw [← hs]; simp
      unfold Stream.readLine
      simp only [hcs]
      rw [← hcs, htake, (splitAt_none _ _).2 h]
      simp only
      rw [if_pos (by simp; omega), if_neg hc]
      rw [← hs]; simp
  | fullCR _ r' h hs =>
    have hne : ∃ c cs, l ++ CR :: r' = c :: cs := by
      cases l with
      | nil => exact ⟨_, _, rfl⟩
      | cons c cs => exact ⟨_, _, rfl⟩
    obtain ⟨c, cs, hcs⟩ := hne
    have htake : (l ++ CR :: r').take N = l ++ [CR] := by
      rw [← hs, List.take_append, List.take_of_length_le (by omega)]; simp
    unfold Stream.readLine
    simp only [hcs]
    rw [← hcs, htake, (splitAt_none _ _).2 (by simp [h]; decide)]
    simp only
    rw [if_pos (by simp; omega), if_pos (by simp)]
    rw [← hs]; simp

theorem readLine_iff (s : Stream) (l r : Bytes) (hN : 2 ≤ s.bufsz) :
    Stream.readLine s = .ok (l, { s with rest := r }) ↔ Line s.bufsz s.rest l r := by
  constructor
  · intro h; exact readLine_Line _ _ _ h hN
  · intro h; exact Line_readLine s.fin hN h

theorem Line_unique {N : Nat} {b l r l' r' : Bytes} (hN : 2 ≤ N) (h : Line N b l r) (h' : Line N b l' r') :
    l = l' ∧ r = r' := by
  have h1 := Line_readLine .eof hN h
  have h2 := Line_readLine .eof hN h'
  rw [h1] at h2
  simp only [Res.ok.injEq, Prod.mk.injEq, Stream.mk.injEq, and_true] at h2
  exact h2

theorem Line_nil {N : Nat} {l r : Bytes} (hN : 2 ≤ N) (h : Line N [] l r) : False := by
  have := Line_readLine .eof hN h
  simp at this

/-! ## references -/

theorem ref_iff (x : Bytes) (c : Cid) :
    (hexDecode x >>= shaToCid) = .ok c ↔ RefLink x (.cid c) := by
  constructor
  · intro h
    obtain ⟨sha, h1, h2⟩ := Res.bind_eq_ok.1 h
    obtain ⟨h3, rfl⟩ := (shaToCid_eq_ok _ _).1 h2
    exact ⟨sha, ⟨(hexDecode_iff _ _).1 h1, h3⟩, rfl⟩
  · rintro ⟨sha, ⟨h1, h2⟩, h3⟩
    rw [(hexDecode_iff _ _).2 h1, Res.bind_ok, shaToCid_ok _ h2]
    simp only [gitLink, Link.cid.injEq] at h3
    rw [h3]; rfl

theorem refLink_isCid {x : Bytes} {l : Link} (h : RefLink x l) : ∃ c, l = .cid c := by
  obtain ⟨sha, _, rfl⟩ := h
  exact ⟨_, rfl⟩

/-! ## persons -/

theorem spaces_eq (ps : List Bytes) : spaces ps = joinSp ps := by
  induction ps with
  | nil => rfl
  | cons p ps ih =>
    cases ps with
    | nil => rfl
    | cons q qs => simp only [spaces, joinSp, ih]

theorem unopen_eq (w : Bytes) : unopen w = strip1 w := rfl

theorem nameLoop_complete (pre rest : List Bytes) (q : Bytes) (hpre : ∀ x ∈ pre, x.head? ≠ some LT)
    (hq : q.head? = some LT) :
    nameLoop (pre ++ q :: rest) [] = .ok (spaced (pre.dropWhile List.isEmpty), q :: rest) := by
  induction pre with
  | nil =>
    cases q with
    | nil => simp at hq
    | cons c cs =>
      simp only [List.head?_cons, Option.some.injEq] at hq
      simp [nameLoop, first, hq, spaced]
  | cons p pre ih =>
    have ih := ih (fun x hx => hpre x (by simp [hx]))
    cases p with
    | nil => simpa [nameLoop] using ih
    | cons c cs =>
      have hc : c ≠ LT := by simpa using hpre (c :: cs) (by simp)
      have step := nameLoop_nonempty pre rest q (c :: cs ++ [SP]) (by simp)
        (fun x hx => hpre x (by simp [hx])) hq
      simp only [List.cons_append, nameLoop, List.length_cons, ne_eq, Nat.add_one_ne_zero,
        not_false_eq_true, if_true, first, Res.bind_ok, hc, if_false, List.nil_append] at step ⊢
      rw [step]
      simp [spaced]

theorem emailLoop_complete (ps : List Bytes) (e e' : Bytes) (T : List Bytes) (acc : Bytes)
    (hps : ∀ p ∈ ps, (strip1 p).getLast? ≠ some GT) (he : strip1 e = e' ++ [GT]) :
    emailLoop (ps ++ e :: T) acc = .ok (acc ++ spaced (ps.map strip1) ++ e', T) := by
  induction ps generalizing acc with
  | nil => simp [emailLoop_cons, he, spaced]
  | cons p ps ih =>
    rw [List.cons_append, emailLoop_cons, if_neg (hps p (by simp)), ih _ (fun x hx => hps x (by simp [hx]))]
    simp [spaced]

theorem emailLoop_sound (ps : List Bytes) (acc em : Bytes) (r : List Bytes)
    (h : emailLoop ps acc = .ok (em, r)) :
    ∃ pre e e', ps = pre ++ e :: r ∧ (∀ p ∈ pre, (strip1 p).getLast? ≠ some GT) ∧
      strip1 e = e' ++ [GT] ∧ em = acc ++ spaced (pre.map strip1) ++ e' := by
  induction ps generalizing acc with
  | nil => simp [emailLoop] at h
  | cons p ps ih =>
    rw [emailLoop_cons] at h
    split at h
    · rename_i hg
      simp only [Res.ok.injEq, Prod.mk.injEq] at h
      obtain ⟨rfl, rfl⟩ := h
      obtain ⟨a, ha⟩ := List.getLast?_eq_some_iff.1 hg
      exact ⟨[], p, a, rfl, by simp, ha, by simp [ha, spaced]⟩
    · rename_i hg
      obtain ⟨pre, e, e', h1, h2, h3, h4⟩ := ih _ h
      refine ⟨p :: pre, e, e', by simp [h1], ?_, h3, by simp [h4, spaced]⟩
      intro x hx
      rcases List.mem_cons.1 hx with rfl | hx
      · exact hg
      · exact h2 x hx

theorem dropWhile_empty (ps : List Bytes) :
    ps.dropWhile (fun x => decide (x = [])) = ps.dropWhile List.isEmpty := by
  congr 1
  funext x
  cases x <;> simp

theorem chop_spaced (ps : List Bytes) :
    (if (spaced ps).length ≠ 0 then chop (spaced ps) else .ok []) = .ok (joinSp ps) := by
  cases ps with
  | nil => simp [spaced, joinSp]
  | cons p ps =>
    rw [spaced_eq _ (by simp)]
    simp

theorem personRest_eq (n e : Bytes) (r : List Bytes) (p : PersonInfo) :
    personRest n e r = p ↔ p.name = n ∧ p.email = e ∧ p.date = r.head?.getD [] ∧
      p.timezone = r.tail.head?.getD [] := by
  obtain ⟨pn, pe, pd, pt⟩ := p
  unfold personRest
  split <;> simp [eq_comm]

theorem parsePerson_iff (line : Bytes) (p : PersonInfo) :
    parsePersonInfo line = .ok p ↔ PersonRead line p := by
  constructor
  · intro h
    have hlen : ¬ (splitSp line).length < 3 := by
      intro hc
      unfold parsePersonInfo at h
      simp [hc] at h
    obtain ⟨n, r, r2, h1, h2, h3, h4⟩ := parse_inv line p h
    obtain ⟨pre, q, rest, h5, h6, h7, h8, h9⟩ := nameLoop_inv _ _ _ _ h1
    subst h6
    obtain ⟨es, e, e', h10, h11, h12, h13⟩ := emailLoop_sound _ _ _ _ h3
    obtain ⟨w, hall⟩ : ∃ w, splitSp line = w :: (pre ++ (es ++ e :: r2)) := by
      rw [← h10, ← h5]
      cases h : splitSp line with
      | nil => exact absurd h (splitSp_ne_nil _)
      | cons a b => exact ⟨a, by simp⟩
    rw [if_pos rfl] at h9
    subst h9
    rw [chop_spaced] at h2
    simp only [Res.ok.injEq] at h2
    have h4' := (personRest_eq _ _ _ _).1 h4.symm
    refine ⟨w, pre, es, e, e', r2, ?_, ?_, ?_, h8, ?_, h11, h12, ?_, ?_, h4'.2.2.1, h4'.2.2.2⟩
    · rw [spaces_eq, ← hall, joinSp_splitSp]
    · rw [← hall]; exact splitSp_parts line
    · rw [hall] at hlen
      simp only [List.length_cons] at hlen
      omega
    · cases es with
      | nil => simp at h10 ⊢; rw [← h10.1]; exact h7
      | cons a b => simp at h10 ⊢; rw [← h10.1]; exact h7
    · rw [spaces_eq, dropWhile_empty]; exact h2.symm
    · rw [spaces_eq, h13, List.nil_append, spaced_append_last]; rfl
  · rintro ⟨w, ns, es, e, e', r2, hline, hsp, hlen, hns, hop, hes, he, hname, hemail, hd, ht⟩
    have hsplit : splitSp line = w :: (ns ++ (es ++ e :: r2)) := by
      rw [hline, spaces_eq]; exact splitSp_joinSp _ (by simp) hsp
    have hn : nameLoop (ns ++ (es ++ e :: r2)) [] =
        .ok (spaced (ns.dropWhile List.isEmpty), es ++ e :: r2) := by
      cases es with
      | nil => exact nameLoop_complete ns r2 e hns (by simpa using hop)
      | cons a b => exact nameLoop_complete ns (b ++ e :: r2) a hns (by simpa using hop)
    unfold parsePersonInfo
    simp only [hsplit]
    rw [if_neg (by simp only [List.length_cons]; omega)]
    simp only [List.drop_succ_cons, List.drop_zero, hn, Res.bind_ok]
    rw [chop_spaced]
    simp only [Res.bind_ok]
    rw [emailLoop_complete es e e' r2 [] hes he]
    simp only [Res.bind_ok, List.nil_append, Res.ok.injEq]
    rw [personRest_eq]
    refine ⟨?_, ?_, hd, ht⟩
    · rw [hname, spaces_eq, dropWhile_empty]
    · rw [hemail, spaces_eq, spaced_append_last]; rfl

theorem person_unique {l : Bytes} {p q : PersonInfo} (h : PersonRead l p) (h' : PersonRead l q) : p = q := by
  have h1 := (parsePerson_iff _ _).2 h
  have h2 := (parsePerson_iff _ _).2 h'
  rw [h1] at h2
  simpa using h2

end Verif
