import Verif.Spec.Faults
import Verif.Props.Accept

/-!
# Faults

Each decoder returns an error exactly for the inputs that `Spec/Faults.lean`
gives for it.
-/

namespace Verif

open Spec Props

/-! ## references and persons -/

theorem hexDecode_err (h : Bytes) (e : Err) :
    hexDecode h = .err e ↔ e = .badHex ∧ ∀ sha, ¬ HexOf h sha := by
  have key : ∀ e, hexDecode h = .err e → e = .badHex := by
    intro e
    induction h using hexDecode.induct with
    | case1 => intro h; simp [hexDecode] at h
    | case2 => intro h; simpa [hexDecode, eq_comm] using h
    | case3 a c cs x y hy hx r hr ih => intro h; simp [hexDecode, hy, hx, hr] at h
    | case4 a c cs x y hy hx e' hr ih =>
      intro h
      simp only [hexDecode, hy, hx, hr, Res.err.injEq] at h
      exact ih (h ▸ hr)
    | case5 a c cs x y hy hx hr ih => intro h; simp [hexDecode, hy, hx, hr] at h
    | case6 a c cs hno => 
      intro h
      unfold hexDecode at h
      split at h
      · rename_i x y hx hy; exact absurd hy (hno x y hx)
      · simpa [eq_comm] using h
  constructor
  · intro h
    refine ⟨key e h, fun sha hs => ?_⟩
    rw [(hexDecode_iff _ _).2 hs] at h
    cases h
  · rintro ⟨rfl, hno⟩
    cases hh : hexDecode h with
    | ok sha => exact absurd ((hexDecode_iff _ _).1 hh) (hno sha)
    | err e => rw [key e hh]
    | panic =>
      exact absurd hh (hexDecode_ne_panic _)

theorem shaToCid_err (sha : Bytes) (e : Err) : shaToCid sha = .err e ↔ e = .badSha ∧ sha.length ≠ 20 := by
  unfold shaToCid
  split
  · rename_i h
    simp only [Res.err.injEq]
    exact ⟨fun h' => ⟨h'.symm, h⟩, fun h' => h'.1.symm⟩
  · rename_i h
    constructor
    · intro h; cases h
    · rintro ⟨_, h'⟩; exact absurd (Decidable.not_not.1 h) h'

theorem ref_bind_err {β : Type} (x : Bytes) (f : Cid → Res β) (e : Err) :
    (hexDecode x >>= fun sha => shaToCid sha >>= f) = .err e ↔
      BadRef x e ∨ ∃ c, RefLink x (.cid c) ∧ f c = .err e := by
  constructor
  · intro h
    rcases Res.bind_eq_err.1 h with h | ⟨sha, h1, h⟩
    · obtain ⟨rfl, h'⟩ := (hexDecode_err _ _).1 h
      exact .inl (.digits h')
    · have hx := (hexDecode_iff _ _).1 h1
      rcases Res.bind_eq_err.1 h with h | ⟨c, h2, h⟩
      · obtain ⟨rfl, h'⟩ := (shaToCid_err _ _).1 h
        exact .inl (.length sha hx h')
      · exact .inr ⟨c, (ref_iff x c).1 (by rw [h1]; exact h2), h⟩
  · rintro (h | ⟨c, h1, h2⟩)
    · cases h with
      | digits h => rw [(hexDecode_err _ _).2 ⟨rfl, h⟩]; rfl
      | length sha hx hl =>
        rw [(hexDecode_iff _ _).2 hx]
        simp only [Res.bind_ok]
        rw [(shaToCid_err _ _).2 ⟨rfl, hl⟩]; rfl
    · obtain ⟨sha, h3, h4⟩ := Res.bind_eq_ok.1 ((ref_iff x c).2 h1)
      rw [h3, Res.bind_ok, h4, Res.bind_ok, h2]

theorem badRef_not {x : Bytes} {e : Err} {c : Link} (h : BadRef x e) (hc : RefLink x c) : False := by
  obtain ⟨sha, ⟨h1, h2⟩, _⟩ := hc
  cases h with
  | digits h => exact h _ h1
  | length sha' hx hl =>
    have := (hexDecode_iff _ _).2 hx
    rw [(hexDecode_iff _ _).2 h1] at this
    simp only [Res.ok.injEq] at this
    exact hl (this ▸ h2)

theorem person_bind_err {β : Type} (l : Bytes) (f : PersonInfo → Res β) (e : Err) :
    (parsePersonInfo l >>= f) = .err e ↔
      (e = .badPerson ∧ ∀ p, ¬ PersonRead l p) ∨ ∃ p, PersonRead l p ∧ f p = .err e := by
  constructor
  · intro h
    rcases Res.bind_eq_err.1 h with h | ⟨p, h1, h⟩
    · have hno : ∀ p, ¬ PersonRead l p := by
        intro p hp
        rw [(parsePerson_iff _ _).2 hp] at h
        cases h
      rw [person_rejects l hno] at h
      simp only [Res.err.injEq] at h
      exact .inl ⟨h.symm, hno⟩
    · exact .inr ⟨p, (parsePerson_iff _ _).1 h1, h⟩
  · rintro (⟨rfl, h⟩ | ⟨p, h1, h2⟩)
    · rw [person_rejects l h]; rfl
    · rw [(parsePerson_iff _ _).2 h1, Res.bind_ok, h2]

/-! ## lines -/

theorem lines_cons {N : Nat} {P : Bytes → Prop} {b l r r' : Bytes} {ls : List Bytes} (hN : 2 ≤ N)
    (hl : Line N b l r) (h : Lines N P b ls r') :
    (ls = [] ∧ r' = b) ∨ (P l ∧ ∃ ls', ls = l :: ls' ∧ Lines N P r ls' r') := by
  cases h with
  | none => exact .inl ⟨rfl, rfl⟩
  | more _ l' r1 _ ls' h hp hr =>
    obtain ⟨rfl, rfl⟩ := Line_unique hN hl h
    exact .inr ⟨hp, ls', rfl, hr⟩

theorem lines_empty {N : Nat} {P : Bytes → Prop} {r' : Bytes} {ls : List Bytes} (hN : 2 ≤ N)
    (h : Lines N P [] ls r') : ls = [] ∧ r' = [] := by
  cases h with
  | none => exact ⟨rfl, rfl⟩
  | more _ _ _ _ _ h => exact (Line_nil hN h).elim

theorem Line_ne {N : Nat} {b l r : Bytes} (hN : 2 ≤ N) (h : Line N b l r) : b ≠ [] := by
  rintro rfl; exact Line_nil hN h

/-! ## signatures -/

theorem sigRun_err (m : Bytes) (s : Stream) (e : Err) (hN : 2 ≤ s.bufsz) (hf : s.fin = .eof) :
    sigRun m s = .err e ↔ e = .eof ∧ ∃ ls, Lines s.bufsz (· ≠ sigEnd) s.rest ls [] := by
  induction s using stream_induct generalizing m with
  | h s ih =>
    rw [sigRun_eq m s hN]
    cases hr : Stream.readLine s with
    | panic => exact absurd hr (Stream.readLine_ne_panic s)
    | err e' =>
      obtain ⟨h1, h2⟩ := (Stream.readLine_err s e').1 hr
      rw [hf] at h2
      subst h2
      rw [h1]
      simp only [Res.err.injEq]
      exact ⟨fun h => ⟨h.symm, [], .none _⟩, fun h => h.1.symm⟩
    | ok p =>
      obtain ⟨l, s1⟩ := p
      have hlt := Stream.readLine_lt s s1 l hN hr
      have hline := readLine_Line _ _ _ hr hN
      simp only
      split
      · rename_i hl
        constructor
        · intro h; cases h
        · rintro ⟨_, ls, h⟩
          rcases lines_cons hN hline h with ⟨_, h⟩ | ⟨h, _⟩
          · exact absurd h.symm (Line_ne hN hline)
          · exact absurd hl h
      · rename_i hl
        rw [ih s1 hlt _ (by rw [hlt.bufsz]; exact hN) (by rw [hlt.fin]; exact hf), hlt.bufsz]
        constructor
        · rintro ⟨he, ls, h⟩
          exact ⟨he, l :: ls, .more _ _ _ _ _ hline hl h⟩
        · rintro ⟨he, ls, h⟩
          rcases lines_cons hN hline h with ⟨_, h⟩ | ⟨_, ls', _, h⟩
          · exact absurd h.symm (Line_ne hN hline)
          · exact ⟨he, ls', h⟩

theorem sigStart_iff (l : Bytes) (ls : List Bytes) :
    SigStart (l :: ls) ↔ l = b!" " ∨ b!" Version: " <+: l ∨ b!" Comment: " <+: l := by
  simp [SigStart]

/-- What can be wrong with a signature. -/
def SigFault (N : Nat) (b : Bytes) (e : Err) : Prop :=
  (e = .eof ∧ ∃ ls, Lines N (· ≠ sigEnd) b ls [] ∧ (ls = [] ∨ SigStart ls)) ∨
  (e = .badSig ∧ ∃ l r, Line N b l r ∧ ¬ SigStart [l])

theorem gpgSig_err (s : Stream) (e : Err) (hN : 2 ≤ s.bufsz) (hf : s.fin = .eof) :
    decodeGpgSig s = .err e ↔ SigFault s.bufsz s.rest e := by
  rw [decodeGpgSig_eq]
  unfold SigFault
  cases hr : Stream.readLine s with
  | panic => exact absurd hr (Stream.readLine_ne_panic s)
  | err e' =>
    obtain ⟨h1, h2⟩ := (Stream.readLine_err s e').1 hr
    rw [hf] at h2
    subst h2
    rw [h1]
    simp only [Res.bind_err, Res.err.injEq]
    constructor
    · intro h; exact .inl ⟨h.symm, [], .none _, .inl rfl⟩
    · rintro (⟨h, _⟩ | ⟨_, l, r, h, _⟩)
      · exact h.symm
      · exact (Line_nil hN h).elim
  | ok p =>
    obtain ⟨l, s1⟩ := p
    have hlt := Stream.readLine_lt s s1 l hN hr
    have hline := readLine_Line _ _ _ hr hN
    simp only [Res.bind_ok]
    have h2 : (if l ≠ b!" " then
          if hasPrefix l b!" Version: " || hasPrefix l b!" Comment: " then Res.ok (l ++ [LF])
          else .err .badSig
        else .ok b!" \n") = if l = b!" " ∨ b!" Version: " <+: l ∨ b!" Comment: " <+: l then .ok (l ++ [LF])
          else .err .badSig := by
      by_cases h6 : l = b!" "
      · simp [h6]
      · simp only [h6, ne_eq, not_false_eq_true, if_true, false_or, Bool.or_eq_true, hasPrefix_iff']
    rw [h2]
    split
    · rename_i hst
      simp only [Res.bind_ok]
      rw [sigRun_err _ _ _ (by rw [hlt.bufsz]; exact hN) (by rw [hlt.fin]; exact hf), hlt.bufsz]
      have hne : l ≠ sigEnd := by rintro rfl; revert hst; decide
      constructor
      · rintro ⟨he, ls, h⟩
        exact .inl ⟨he, l :: ls, .more _ _ _ _ _ hline hne h, .inr ((sigStart_iff _ _).2 hst)⟩
      · rintro (⟨he, ls, h, _⟩ | ⟨_, l', r', h, h'⟩)
        · rcases lines_cons hN hline h with ⟨_, h⟩ | ⟨_, ls', _, h⟩
          · exact absurd h.symm (Line_ne hN hline)
          · exact ⟨he, ls', h⟩
        · obtain ⟨rfl, _⟩ := Line_unique hN hline h
          exact absurd ((sigStart_iff _ _).2 hst) h'
    · rename_i hst
      simp only [Res.bind_err, Res.err.injEq]
      constructor
      · intro h
        exact .inr ⟨h.symm, l, s1.rest, hline, fun h => hst ((sigStart_iff _ _).1 h)⟩
      · rintro (⟨he, ls, h, h'⟩ | ⟨h, _⟩)
        · rcases lines_cons hN hline h with ⟨_, h⟩ | ⟨_, ls', rfl, _⟩
          · exact absurd h.symm (Line_ne hN hline)
          · rcases h' with h' | h'
            · cases h'
            · exact absurd ((sigStart_iff _ _).1 h') hst
        · exact h.symm

/-! ## merge tags -/

theorem mergeMsgRun_err (m : Bytes) (s : Stream) (e : Err) (hN : 2 ≤ s.bufsz) (hf : s.fin = .eof) :
    mergeMsgRun m s = .err e ↔ e = .eof ∧ ∃ ls, Lines s.bufsz (·.head? = some SP) s.rest ls [] := by
  induction s using stream_induct generalizing m with
  | h s ih =>
    rw [mergeMsgRun_eq m s hN]
    cases hr : Stream.readLine s with
    | panic => exact absurd hr (Stream.readLine_ne_panic s)
    | err e' =>
      obtain ⟨h1, h2⟩ := (Stream.readLine_err s e').1 hr
      rw [hf] at h2
      subst h2
      rw [h1]
      simp only [Res.err.injEq]
      exact ⟨fun h => ⟨h.symm, [], .none _⟩, fun h => h.1.symm⟩
    | ok p =>
      obtain ⟨l, s1⟩ := p
      have hlt := Stream.readLine_lt s s1 l hN hr
      have hline := readLine_Line _ _ _ hr hN
      simp only [hasPrefix_iff', sp_prefix_iff]
      split
      · rename_i hl
        constructor
        · intro h; cases h
        · rintro ⟨_, ls, h⟩
          rcases lines_cons hN hline h with ⟨_, h⟩ | ⟨h, _⟩
          · exact absurd h.symm (Line_ne hN hline)
          · exact absurd h hl
      · rename_i hl
        rw [ih s1 hlt _ (by rw [hlt.bufsz]; exact hN) (by rw [hlt.fin]; exact hf), hlt.bufsz]
        constructor
        · rintro ⟨he, ls, h⟩
          exact ⟨he, l :: ls, .more _ _ _ _ _ hline (Decidable.not_not.1 hl) h⟩
        · rintro ⟨he, ls, h⟩
          rcases lines_cons hN hline h with ⟨_, h⟩ | ⟨_, ls', _, h⟩
          · exact absurd h.symm (Line_ne hN hline)
          · exact ⟨he, ls', h⟩

theorem mergeFault_empty {N : Nat} {ls : List Bytes} {e : Err} (hN : 2 ≤ N) (h : MergeFault N [] ls e) : False := by
  cases h with
  | tagger r l r' hs h =>
    obtain ⟨_, rfl⟩ := lines_empty hN hs
    exact Line_nil hN h
  | message r msg hh =>
    cases hh with
    | stop _ _ h => exact Line_nil hN h
    | more _ _ _ _ _ h => exact Line_nil hN h

theorem mergeFault_cons {N : Nat} {b l r : Bytes} {L : List Bytes} {e : Err} (hN : 2 ≤ N) (hl : Line N b l r)
    (hne : l ≠ b!" ") (hok : b!" tagger " <+: l → ∃ p, PersonRead (l.drop 1) p) :
    MergeFault N b L e ↔ ∃ ls, L = l :: ls ∧ MergeFault N r ls e := by
  constructor
  · intro h
    cases h with
    | tagger r1 l1 r2 hs h hw hp =>
      rcases lines_cons hN hl hs with ⟨_, rfl⟩ | ⟨_, ls', rfl, hs'⟩
      · obtain ⟨rfl, _⟩ := Line_unique hN hl h
        obtain ⟨p, h⟩ := hok hw
        exact absurd h (hp p)
      · exact ⟨ls', rfl, .tagger r1 l1 r2 hs' h hw hp⟩
    | message r1 msg hh hm =>
      cases hh with
      | stop _ _ h => exact absurd (Line_unique hN hl h).1 hne
      | more _ _ _ _ ls' h _ hh =>
        obtain ⟨rfl, rfl⟩ := Line_unique hN hl h
        exact ⟨ls', rfl, .message r1 msg hh hm⟩
  · rintro ⟨ls, rfl, h⟩
    cases h with
    | tagger r1 l1 r2 hs h hw hp => exact .tagger r1 l1 r2 (.more _ _ _ _ _ hl hne hs) h hw hp
    | message r1 msg hh hm => exact .message r1 msg (.more _ _ _ _ _ hl hne hh) hm

theorem mergeTagRun_err (o : Tag) (s : Stream) (e : Err) (hN : 2 ≤ s.bufsz) (hf : s.fin = .eof) :
    mergeTagRun o s = .err e ↔ ∃ ls t, MergeFault s.bufsz s.rest ls e ∧ MergeFrom o ls none t := by
  induction s using stream_induct generalizing o with
  | h s ih =>
    rw [mergeTagRun_eq o s hN]
    cases hr : Stream.readLine s with
    | panic => exact absurd hr (Stream.readLine_ne_panic s)
    | err e' =>
      obtain ⟨h1, h2⟩ := (Stream.readLine_err s e').1 hr
      rw [hf] at h2
      subst h2
      rw [h1]
      constructor
      · intro h; simp at h
      · rintro ⟨ls, t, h, _⟩; exact (mergeFault_empty hN h).elim
    | ok p =>
      obtain ⟨l, s1⟩ := p
      have hlt := Stream.readLine_lt s s1 l hN hr
      have hline := readLine_Line _ _ _ hr hN
      have hN1 : 2 ≤ s1.bufsz := by rw [hlt.bufsz]; exact hN
      have hf1 : s1.fin = .eof := by rw [hlt.fin]; exact hf
      have key : ∀ o', MergeStep o l o' → l ≠ b!" " →
          (b!" tagger " <+: l → ∃ p, PersonRead (l.drop 1) p) →
          (∀ o'', MergeStep o l o'' → o'' = o') →
          (mergeTagRun o' s1 = .err e ↔
            ∃ ls t, MergeFault s.bufsz s.rest ls e ∧ MergeFrom o ls none t) := by
        intro o' hstep hne hok huniq
        rw [ih s1 hlt o' hN1 hf1, hlt.bufsz]
        constructor
        · rintro ⟨ls, t, h1, h2⟩
          exact ⟨l :: ls, t, (mergeFault_cons hN hline hne hok).2 ⟨ls, rfl, h1⟩,
            (mergeFrom_cons _ _ _ _ _).2 ⟨o', hstep, h2⟩⟩
        · rintro ⟨ls, t, h1, h2⟩
          obtain ⟨ls, rfl, h5⟩ := (mergeFault_cons hN hline hne hok).1 h1
          obtain ⟨o'', h4, h6⟩ := (mergeFrom_cons _ _ _ _ _).1 h2
          rw [huniq o'' h4] at h6
          exact ⟨ls, t, h5, h6⟩
      simp only [hasPrefix_iff']
      unfold MergeStep at key
      split
      · rename_i h
        rw [sliceFrom_prefix h 6 rfl]
        simp only [h, if_true] at key
        exact key _ rfl (by rintro rfl; revert h; decide)
          (fun h' => absurd h' (prefix_excl h (by decide) (by decide))) (fun _ h => h)
      split
      · rename_i h0 h
        rw [sliceFrom_prefix h 5 rfl]
        simp only [h0, if_false, h, if_true] at key
        exact key _ rfl (by rintro rfl; revert h; decide)
          (fun h' => absurd h' (prefix_excl h (by decide) (by decide))) (fun _ h => h)
      split
      · rename_i h0 h1 h
        have hne : l ≠ b!" " := by rintro rfl; revert h; decide
        have hsl : sliceFrom l 1 = .ok (l.drop 1) := by
          obtain ⟨y, rfl⟩ := h
          rfl
        rw [hsl]
        simp only [h0, if_false, h1, h, if_true] at key
        simp only [Res.bind_ok]
        rw [person_bind_err]
        constructor
        · rintro (⟨rfl, hno⟩ | ⟨p, hp, hrun⟩)
          · exact ⟨[], _, .tagger _ l _ (.none _) hline h hno, (mergeFrom_nil _ _ _).2 rfl⟩
          · refine (key _ ⟨p, hp, rfl⟩ hne (fun _ => ⟨p, hp⟩) ?_).1 hrun
            rintro _ ⟨q, hq, rfl⟩
            rw [person_unique hp hq]
        · rintro hfault
          by_cases hp : ∃ p, PersonRead (l.drop 1) p
          · obtain ⟨p, hp⟩ := hp
            refine .inr ⟨p, hp, (key _ ⟨p, hp, rfl⟩ hne (fun _ => ⟨p, hp⟩) ?_).2 hfault⟩
            rintro _ ⟨q, hq, rfl⟩
            rw [person_unique hp hq]
          · have hno : ∀ p, ¬ PersonRead (l.drop 1) p := fun p h => hp ⟨p, h⟩
            refine .inl ⟨?_, hno⟩
            obtain ⟨ls, t, hfault, hfrom⟩ := hfault
            cases hfault with
            | tagger => rfl
            | message r1 msg hh hm =>
              cases hh with
              | stop _ _ h' => exact absurd (Line_unique hN hline h').1 hne
              | more _ _ _ _ ls' h' _ hh =>
                obtain ⟨rfl, rfl⟩ := Line_unique hN hline h'
                obtain ⟨o'', h4, _⟩ := (mergeFrom_cons _ _ _ _ _).1 hfrom
                unfold MergeStep at h4
                simp only [h0, if_false, h1, h, if_true] at h4
                obtain ⟨p, hp, _⟩ := h4
                exact absurd hp (hno p)
      split
      · rename_i h0 h1 h2 hl
        subst hl
        constructor
        · intro h
          rcases Res.bind_eq_err.1 h with h | ⟨_, _, h⟩
          · obtain ⟨rfl, msg, h⟩ := (mergeMsgRun_err _ _ _ hN1 hf1).1 h
            rw [hlt.bufsz] at h
            exact ⟨[], _, .message _ msg (.stop _ _ hline) h, (mergeFrom_nil _ _ _).2 rfl⟩
          · cases h
        · rintro ⟨ls, t, h, _⟩
          cases h with
          | tagger r1 l1 r2 hs h hw hp =>
            rcases lines_cons hN hline hs with ⟨_, rfl⟩ | ⟨h, _⟩
            · obtain ⟨rfl, _⟩ := Line_unique hN hline h
              exact absurd hw (by decide)
            · exact absurd rfl h
          | message r1 msg hh hm =>
            cases hh with
            | more _ _ _ _ _ h hne => exact absurd (Line_unique hN hline h).1.symm hne
            | stop _ _ h =>
              obtain ⟨_, rfl⟩ := Line_unique hN hline h
              rw [(mergeMsgRun_err _ s1 .eof hN1 hf1).2 ⟨rfl, msg, by rw [hlt.bufsz]; exact hm⟩]
              rfl
      · rename_i h0 h1 h2 hl
        simp only [h0, if_false, h1, h2] at key
        exact key _ rfl hl (fun h' => h'.elim) (fun _ h => h)

theorem readMergeTag_err (x : Bytes) (s : Stream) (e : Err) (hN : 2 ≤ s.bufsz) (hf : s.fin = .eof) :
    (hexDecode x >>= fun sha => readMergeTag sha s) = .err e ↔
      BadRef x e ∨ ∃ ls t, MergeFault s.bufsz s.rest ls e ∧ MergeMeans (x, ls, none) t := by
  simp only [readMergeTag_eq]
  rw [ref_bind_err]
  constructor
  · rintro (h | ⟨c, hc, h⟩)
    · exact .inl h
    · obtain ⟨ls, t, h1, h2⟩ := (mergeTagRun_err _ _ _ hN hf).1 h
      exact .inr ⟨ls, t, h1, (mergeMeans_iff x c hc _ _ _).1 h2⟩
  · rintro (h | ⟨ls, t, h1, h2⟩)
    · exact .inl h
    · obtain ⟨c, hc⟩ := refLink_isCid h2.object
      have hx : RefLink x (.cid c) := hc ▸ h2.object
      exact .inr ⟨c, hx, (mergeTagRun_err _ _ _ hN hf).2 ⟨ls, t, h1, (mergeMeans_iff x c hx _ _ _).2 h2⟩⟩

/-! ## commits -/

/-- Header words of a commit that are followed by a reference. -/
abbrev commitRefs : List Bytes := [b!"tree ", b!"parent ", b!"mergetag object "]

/-- Header words of a commit that are followed by a person. -/
abbrev commitPersons : List Bytes := [b!"author ", b!"committer "]

theorem badLine_ref {refs persons : List Bytes} {w l : Bytes} {e : Err} (hw : w ∈ refs) (hl : w <+: l)
    (h : BadRef (l.drop w.length) e) : BadLine refs persons l e := by
  obtain ⟨x, rfl⟩ := hl
  rw [List.drop_left] at h
  exact .ref w x e hw h

/-- A line is wrong in the way its first word says. -/
theorem badLine_commit (l : Bytes) (e : Err) :
    BadLine commitRefs commitPersons l e ↔
      (b!"tree " <+: l ∧ BadRef (l.drop 5) e) ∨ (b!"parent " <+: l ∧ BadRef (l.drop 7) e) ∨
      (b!"mergetag object " <+: l ∧ BadRef (l.drop 16) e) ∨
      ((b!"author " <+: l ∨ b!"committer " <+: l) ∧ e = .badPerson ∧ ∀ p, ¬ PersonRead l p) := by
  constructor
  · intro h
    cases h with
    | ref w x _ hw h =>
      simp only [List.mem_cons, List.not_mem_nil, or_false] at hw
      rcases hw with rfl | rfl | rfl
      · exact .inl ⟨List.prefix_append _ _, h⟩
      · exact .inr (.inl ⟨List.prefix_append _ _, h⟩)
      · exact .inr (.inr (.inl ⟨List.prefix_append _ _, h⟩))
    | person w _ hw hl h =>
      simp only [List.mem_cons, List.not_mem_nil, or_false] at hw
      rcases hw with rfl | rfl
      · exact .inr (.inr (.inr ⟨.inl hl, rfl, h⟩))
      · exact .inr (.inr (.inr ⟨.inr hl, rfl, h⟩))
  · rintro (⟨h1, h2⟩ | ⟨h1, h2⟩ | ⟨h1, h2⟩ | ⟨h1 | h1, rfl, h2⟩)
    · exact badLine_ref (w := b!"tree ") (by simp) h1 h2
    · exact badLine_ref (w := b!"parent ") (by simp) h1 h2
    · exact badLine_ref (w := b!"mergetag object ") (by simp) h1 h2
    · exact .person b!"author " _ (by simp) h1 h2
    · exact .person b!"committer " _ (by simp) h1 h2

theorem commitLine_err (c : Commit) (l : Bytes) (s : Stream) (e : Err) (hN : 2 ≤ s.bufsz) (hl : l ≠ [])
    (hm : ¬ b!"mergetag object " <+: l) (hg : ¬ b!"gpgsig " <+: l) :
    commitLineRun c l s = .err e ↔ BadLine commitRefs commitPersons l e := by
  rw [commitLineRun_eq c l s hN, badLine_commit]
  simp only [hasPrefix_iff', hm, hg, if_false, false_and, false_or]
  by_cases h1 : b!"tree " <+: l
  · have h2 : ¬ b!"parent " <+: l := prefix_excl h1 (by decide) (by decide)
    have h3 : ¬ b!"author " <+: l := prefix_excl h1 (by decide) (by decide)
    have h4 : ¬ b!"committer " <+: l := prefix_excl h1 (by decide) (by decide)
    rw [sliceFrom_prefix h1 5 rfl]
    simp only [h1, h2, h3, h4, if_true, Res.bind_ok, true_and, false_and, or_false]
    rw [ref_bind_err]
    simp
  by_cases h2 : b!"parent " <+: l
  · have h3 : ¬ b!"author " <+: l := prefix_excl h2 (by decide) (by decide)
    have h4 : ¬ b!"committer " <+: l := prefix_excl h2 (by decide) (by decide)
    rw [sliceFrom_prefix h2 7 rfl]
    simp only [h1, h2, h3, h4, if_true, if_false, Res.bind_ok, true_and, false_and, or_false, false_or]
    rw [ref_bind_err]
    simp
  by_cases h3 : b!"author " <+: l
  · simp only [h1, h2, h3, if_true, if_false, true_and, false_and, false_or, true_or]
    rw [person_bind_err]
    simp
  by_cases h4 : b!"committer " <+: l
  · simp only [h1, h2, h3, h4, if_true, if_false, true_and, false_and, false_or, or_true]
    rw [person_bind_err]
    simp
  simp only [h1, h2, h3, h4, if_false, false_and, or_false, iff_false]
  split
  · rename_i h
    rw [sliceFrom_prefix h 9 rfl]
    simp
  · rw [if_neg (by simpa using hl)]
    simp

theorem fault_cases {N : Nat} {b l r : Bytes} {bs : List Block} {e : Err} (hN : 2 ≤ N)
    (hl : Line N b l r) (h : Fault N b bs e) :
    (bs = [] ∧ BadLine commitRefs commitPersons l e) ∨
    (b!"gpgsig " <+: l ∧ bs = [] ∧ SigFault N r e) ∨
    (∃ x ls, l = b!"mergetag object " ++ x ∧ bs = [.merge x ls none] ∧ MergeFault N r ls e) ∨
    (l ≠ [] ∧ ¬ b!"mergetag object " <+: l ∧ ¬ b!"gpgsig " <+: l ∧
      ∃ bs', bs = .line l :: bs' ∧ Fault N r bs' e) ∨
    (b!"gpgsig " <+: l ∧ ∃ ls r' bs', bs = .sig ls :: bs' ∧ SigBody N r ls r' ∧ Fault N r' bs' e) ∨
    (∃ x ls msg bs' r1 r2, l = b!"mergetag object " ++ x ∧ bs = .merge x ls (some msg) :: bs' ∧
      MergeHead N r ls r1 ∧ MergeMsg N r1 msg r2 ∧ Fault N r2 bs' e) := by
  cases h with
  | badLine _ _ _ _ h hb =>
    obtain ⟨rfl, rfl⟩ := Line_unique hN hl h
    exact .inl ⟨rfl, hb⟩
  | badStart _ _ _ l' r' h hg hl' hs =>
    obtain ⟨rfl, rfl⟩ := Line_unique hN hl h
    exact .inr (.inl ⟨hg, rfl, .inr ⟨rfl, l', r', hl', hs⟩⟩)
  | openSig _ _ _ ls h hg hl' hs =>
    obtain ⟨rfl, rfl⟩ := Line_unique hN hl h
    exact .inr (.inl ⟨hg, rfl, .inl ⟨rfl, ls, hl', hs⟩⟩)
  | badMerge _ x _ ls _ h hm =>
    obtain ⟨rfl, rfl⟩ := Line_unique hN hl h
    exact .inr (.inr (.inl ⟨x, ls, rfl, rfl, hm⟩))
  | line _ _ _ bs' _ h hne hm hg hr =>
    obtain ⟨rfl, rfl⟩ := Line_unique hN hl h
    exact .inr (.inr (.inr (.inl ⟨hne, hm, hg, bs', rfl, hr⟩)))
  | sig _ _ _ r' ls bs' _ h hg hs hr =>
    obtain ⟨rfl, rfl⟩ := Line_unique hN hl h
    exact .inr (.inr (.inr (.inr (.inl ⟨hg, ls, r', bs', rfl, hs, hr⟩))))
  | merge _ x _ r1 r2 ls msg bs' _ h hh hm hr =>
    obtain ⟨rfl, rfl⟩ := Line_unique hN hl h
    exact .inr (.inr (.inr (.inr (.inr ⟨x, ls, msg, bs', r1, r2, rfl, rfl, hh, hm, hr⟩))))

theorem fault_ne {N : Nat} {bs : List Block} {e : Err} (hN : 2 ≤ N) (h : Fault N [] bs e) : False := by
  cases h with
  | badLine _ _ _ _ h => exact Line_nil hN h
  | badStart _ _ _ _ _ h => exact Line_nil hN h
  | openSig _ _ _ _ h => exact Line_nil hN h
  | badMerge _ _ _ _ _ h => exact Line_nil hN h
  | line _ _ _ _ _ h => exact Line_nil hN h
  | sig _ _ _ _ _ _ _ h => exact Line_nil hN h
  | merge _ _ _ _ _ _ _ _ _ h => exact Line_nil hN h

theorem badLine_gpgsig {l : Bytes} {e : Err} (hg : b!"gpgsig " <+: l)
    (h : BadLine commitRefs commitPersons l e) : False := by
  rcases (badLine_commit _ _).1 h with ⟨h, _⟩ | ⟨h, _⟩ | ⟨h, _⟩ | ⟨h | h, _⟩ <;>
    exact prefix_excl h (by decide) (by decide) hg

theorem badLine_blank {e : Err} (h : BadLine commitRefs commitPersons [] e) : False := by
  rcases (badLine_commit _ _).1 h with ⟨h, _⟩ | ⟨h, _⟩ | ⟨h, _⟩ | ⟨h | h, _⟩ <;> revert h <;> decide

theorem badLine_merge {x : Bytes} {e : Err} :
    BadLine commitRefs commitPersons (b!"mergetag object " ++ x) e ↔ BadRef x e := by
  have hm : b!"mergetag object " <+: b!"mergetag object " ++ x := List.prefix_append _ _
  have h1 : ¬ b!"tree " <+: b!"mergetag object " ++ x := prefix_excl hm (by decide) (by decide)
  have h2 : ¬ b!"parent " <+: b!"mergetag object " ++ x := prefix_excl hm (by decide) (by decide)
  have h3 : ¬ b!"author " <+: b!"mergetag object " ++ x := prefix_excl hm (by decide) (by decide)
  have h4 : ¬ b!"committer " <+: b!"mergetag object " ++ x := prefix_excl hm (by decide) (by decide)
  rw [badLine_commit]
  simp only [h1, h2, h3, h4, hm, false_and, false_or, true_and, or_false]
  rfl

theorem commitLine_gpg_err (c : Commit) (l : Bytes) (s : Stream) (e : Err) (hN : 2 ≤ s.bufsz) (hf : s.fin = .eof)
    (hg : b!"gpgsig " <+: l) : commitLineRun c l s = .err e ↔ SigFault s.bufsz s.rest e := by
  have h1 : ¬ b!"tree " <+: l := prefix_excl hg (by decide) (by decide)
  have h2 : ¬ b!"parent " <+: l := prefix_excl hg (by decide) (by decide)
  have h3 : ¬ b!"author " <+: l := prefix_excl hg (by decide) (by decide)
  have h4 : ¬ b!"committer " <+: l := prefix_excl hg (by decide) (by decide)
  have h5 : ¬ b!"encoding " <+: l := prefix_excl hg (by decide) (by decide)
  have h6 : ¬ b!"mergetag object " <+: l := prefix_excl hg (by decide) (by decide)
  rw [commitLineRun_eq c l s hN, ← gpgSig_err s e hN hf]
  simp only [hasPrefix_iff', h1, h2, h3, h4, h5, h6, hg, if_true, if_false]
  constructor
  · intro h
    rcases Res.bind_eq_err.1 h with h | ⟨_, _, h⟩
    · exact h
    · cases h
  · intro h; rw [h]; rfl

theorem commitRun_err (n : Nat) (c : Commit) (b : Bytes) (N : Nat) (e : Err) (hn : b.length < n) (hN : 2 ≤ N) :
    commitRun c ⟨b, .eof, N⟩ = .err e ↔ ∃ bs r, Fault N b bs e ∧ CommitFrom c bs none r := by
  induction n generalizing c b with
  | zero => omega
  | succ n ih =>
    rw [commitRun_eq _ _ (by exact hN)]
    cases hr : Stream.readLine ⟨b, .eof, N⟩ with
    | panic => exact absurd hr (Stream.readLine_ne_panic _)
    | err e' =>
      obtain ⟨h1, h2⟩ := (Stream.readLine_err _ e').1 hr
      simp only at h1 h2
      subst h1 h2
      constructor
      · intro h; simp at h
      · rintro ⟨bs, r, h, _⟩; exact (fault_ne hN h).elim
    | ok p =>
      obtain ⟨l, s1⟩ := p
      have hlt := Stream.readLine_lt _ s1 l (by exact hN) hr
      have hline := readLine_Line _ _ _ hr (by exact hN)
      obtain ⟨r1, f1, n1⟩ := s1
      have hf : f1 = .eof := hlt.fin
      have hb : n1 = N := hlt.bufsz
      subst hf hb
      simp only at hline
      have hlen := Line_lt hN hline
      simp only
      by_cases hm : b!"mergetag object " <+: l
      · obtain ⟨x, rfl⟩ := hm
        have hex := mergetag_excl (List.prefix_append b!"mergetag object " x)
        rw [commitLine_merge c x ⟨r1, .eof, n1⟩ hN]
        constructor
        · intro h
          rcases Res.bind_eq_err.1 h with h1 | ⟨⟨c', s2⟩, h1, h⟩
          · rcases Res.bind_eq_err.1 h1 with h2 | ⟨⟨⟨t, y⟩, s3⟩, h2, h3⟩
            · rcases (readMergeTag_err x ⟨r1, .eof, n1⟩ e hN rfl).1 h2 with h3 | ⟨ls, t, h3, h4⟩
              · exact ⟨[], _, .badLine _ _ _ _ hline (badLine_merge.2 h3), (commitFrom_nil _ _ _).2 rfl⟩
              · exact ⟨[.merge x ls none], _, .badMerge _ _ _ _ _ hline h3,
                  (commitFrom_merge _ _ _ _ _ _ _).2 ⟨t, h4, (commitFrom_nil _ _ _).2 rfl⟩⟩
            · obtain ⟨ls, msg, h4, h5, h6⟩ := (readMergeTag_iff x t y ⟨r1, .eof, n1⟩ s3 hN rfl).1 h2
              unfold MergeEnd at h4
              cases msg <;> cases y <;> simp only at h4
              · cases h3
              · rename_i msg l'
                obtain ⟨q1, q2, h7, h8, h9⟩ := h4
                have hq1 := mergeHead_lt hN h7
                have hq2 := mergeMsg_le hN h8
                have key : commitRun { c with mergetag := c.mergetag ++ [t] } ⟨q2, .eof, n1⟩ = .err e := by
                  rw [commitRun_eq _ _ (by exact hN), Line_readLine .eof hN h9]
                  simp only
                  simp only at h3
                  rw [h6] at h3
                  simp only at h3
                  rw [h3]
                  rfl
                obtain ⟨bs, m, h10, h11⟩ := (ih _ q2 (by omega)).1 key
                refine ⟨.merge x ls (some msg) :: bs, m, .merge _ _ _ _ _ _ _ _ _ hline h7 h8 h10, ?_⟩
                rw [commitFrom_merge]
                exact ⟨t, h5, h11⟩
          · obtain ⟨⟨⟨t, y⟩, s3⟩, h2, h3⟩ := Res.bind_eq_ok.1 h1
            obtain ⟨ls, msg, h4, h5, h6⟩ := (readMergeTag_iff x t y ⟨r1, .eof, n1⟩ s3 hN rfl).1 h2
            unfold MergeEnd at h4
            cases msg <;> cases y <;> simp only at h4
            · obtain ⟨h7, h8⟩ := h4
              simp only [Res.ok.injEq, Prod.mk.injEq] at h3
              obtain ⟨rfl, rfl⟩ := h3
              rw [h6, h8] at h
              simp only at h
              rw [commitRun_done _ _ hN] at h
              cases h
            · rename_i msg l'
              obtain ⟨q1, q2, h7, h8, h9⟩ := h4
              have hq1 := mergeHead_lt hN h7
              have hq2 := mergeMsg_le hN h8
              have key : commitRun { c with mergetag := c.mergetag ++ [t] } ⟨q2, .eof, n1⟩ = .err e := by
                rw [commitRun_eq _ _ (by exact hN), Line_readLine .eof hN h9]
                simp only
                simp only at h3
                rw [h6] at h3
                simp only at h3
                rw [h3]
                exact h
              obtain ⟨bs, m, h10, h11⟩ := (ih _ q2 (by omega)).1 key
              refine ⟨.merge x ls (some msg) :: bs, m, .merge _ _ _ _ _ _ _ _ _ hline h7 h8 h10, ?_⟩
              rw [commitFrom_merge]
              exact ⟨t, h5, h11⟩
        · rintro ⟨bs, r, h, ht⟩
          rcases fault_cases hN hline h with ⟨rfl, h1⟩ | ⟨h1, _⟩ | ⟨x', ls, h1, rfl, h2⟩ | ⟨_, h1, _⟩ | ⟨h1, _⟩ |
            ⟨x', ls, msg, bs', q1, q2, h1, rfl, h7, h8, h10⟩
          · rw [(readMergeTag_err x ⟨r1, .eof, n1⟩ e hN rfl).2 (.inl (badLine_merge.1 h1))]
            rfl
          · exact absurd h1 hex.2
          · obtain rfl := List.append_cancel_left h1
            obtain ⟨t, h5, h11⟩ := (commitFrom_merge _ _ _ _ _ _ _).1 ht
            rw [(readMergeTag_err x ⟨r1, .eof, n1⟩ e hN rfl).2 (.inr ⟨ls, t, h2, h5⟩)]
            rfl
          · exact absurd (List.prefix_append _ _) h1
          · exact absurd h1 hex.2
          · obtain rfl := List.append_cancel_left h1
            obtain ⟨t, h5, h11⟩ := (commitFrom_merge _ _ _ _ _ _ _).1 ht
            have hq1 := mergeHead_lt hN h7
            have hq2 := mergeMsg_le hN h8
            obtain ⟨l', r', h9⟩ : ∃ l' r', Line n1 q2 l' r' := by
              clear ht h11 h10 hq1 hq2 h7 h h5
              induction h8 with
              | stop b l r h => exact ⟨l, r, h⟩
              | more _ _ _ _ _ _ _ _ ih => exact ih
            have h2 := (readMergeTag_iff x t (some l') ⟨r1, .eof, n1⟩ ⟨r', .eof, n1⟩ hN rfl).2
              ⟨ls, some msg, ⟨q1, q2, h7, h8, h9⟩, h5, rfl⟩
            rw [h2]
            have key := (ih _ q2 (by omega)).2 ⟨bs', r, h10, h11⟩
            rw [commitRun_eq _ _ (by exact hN), Line_readLine .eof hN h9] at key
            exact key
      by_cases hg : b!"gpgsig " <+: l
      · have hex := gpgsig_excl hg
        constructor
        · intro h
          rcases Res.bind_eq_err.1 h with h1 | ⟨⟨c', s2⟩, h1, h⟩
          · rcases (commitLine_gpg_err _ _ ⟨r1, .eof, n1⟩ e hN rfl hg).1 h1 with ⟨rfl, ls, h2, h3⟩ |
              ⟨rfl, l', r', h2, h3⟩
            · exact ⟨[], _, .openSig _ _ _ _ hline hg h2 h3, (commitFrom_nil _ _ _).2 rfl⟩
            · exact ⟨[], _, .badStart _ _ _ _ _ hline hg h2 h3, (commitFrom_nil _ _ _).2 rfl⟩
          · obtain ⟨g, h2, rfl⟩ := (commitLine_gpg _ _ _ _ _ (by exact hN) hg).1 h1
            obtain ⟨ls, h3, h4, rfl, h6⟩ := (gpgSig_iff _ _ _ (by exact hN)).1 h2
            simp only at h3 h6 h
            have := sigBody_lt hN h3
            rw [h6] at h
            obtain ⟨bs, m, h10, h11⟩ := (ih _ s2.rest (by omega)).1 h
            refine ⟨.sig ls :: bs, m, .sig _ _ _ _ _ _ _ hline hg h3 h10, ?_⟩
            rw [commitFrom_sig]
            exact ⟨h4, h11⟩
        · rintro ⟨bs, r, h, ht⟩
          rcases fault_cases hN hline h with ⟨rfl, h1⟩ | ⟨_, rfl, h1⟩ | ⟨x', ls, h1, _⟩ | ⟨_, _, h1, _⟩ |
            ⟨_, ls, r', bs', rfl, h3, h10⟩ | ⟨x', ls, msg, bs', q1, q2, h1, _⟩
          · exact (badLine_gpgsig hg h1).elim
          · rw [(commitLine_gpg_err _ _ ⟨r1, .eof, n1⟩ e hN rfl hg).2 h1]
            rfl
          · exact absurd (h1 ▸ List.prefix_append _ _) hm
          · exact absurd hg h1
          · obtain ⟨h4, h11⟩ := (commitFrom_sig _ _ _ _ _).1 ht
            have := sigBody_lt hN h3
            have h2 := (gpgSig_iff (unlines ls) ⟨r1, .eof, n1⟩ ⟨r', .eof, n1⟩ (by exact hN)).2
              ⟨ls, h3, h4, rfl, rfl⟩
            rw [(commitLine_gpg _ _ _ _ _ (by exact hN) hg).2 ⟨_, h2, rfl⟩]
            exact (ih _ r' (by omega)).2 ⟨bs', r, h10, h11⟩
          · exact absurd (h1 ▸ List.prefix_append _ _) hm
      by_cases hl : l = []
      · subst hl
        rw [commitLine_blank _ _ _ hN]
        simp only [Res.bind_ok]
        rw [commitRun_done _ _ hN]
        constructor
        · intro h; cases h
        · rintro ⟨bs, r, h, ht⟩
          rcases fault_cases hN hline h with ⟨_, h1⟩ | ⟨h1, _⟩ | ⟨_, _, h1, _⟩ | ⟨h1, _⟩ | ⟨h1, _⟩ |
            ⟨_, _, _, _, _, _, h1, _⟩
          · exact (badLine_blank h1).elim
          · exact absurd h1 hg
          · simp at h1
          · exact absurd rfl h1
          · exact absurd h1 hg
          · simp at h1
      · constructor
        · intro h
          rcases Res.bind_eq_err.1 h with h1 | ⟨⟨c', s2⟩, h1, h⟩
          · exact ⟨[], _, .badLine _ _ _ _ hline ((commitLine_err _ _ _ _ (by exact hN) hl hm hg).1 h1),
              (commitFrom_nil _ _ _).2 rfl⟩
          · obtain ⟨h2, rfl⟩ := (commitLine_step _ _ _ _ _ (by exact hN) hl hm hg).1 h1
            obtain ⟨bs, m, h10, h11⟩ := (ih _ r1 (by omega)).1 h
            refine ⟨.line l :: bs, m, .line _ _ _ _ _ hline hl hm hg h10, ?_⟩
            rw [commitFrom_line _ _ _ _ _ hm hg]
            exact ⟨c', h2, h11⟩
        · rintro ⟨bs, r, h, ht⟩
          rcases fault_cases hN hline h with ⟨_, h1⟩ | ⟨h1, _⟩ | ⟨_, _, h1, _⟩ | ⟨_, _, _, bs', rfl, h10⟩ |
            ⟨h1, _⟩ | ⟨_, _, _, _, _, _, h1, _⟩
          · rw [(commitLine_err c l ⟨r1, .eof, n1⟩ e (by exact hN) hl hm hg).2 h1]
            rfl
          · exact absurd h1 hg
          · exact absurd (h1 ▸ List.prefix_append _ _) hm
          · obtain ⟨c', h2, h11⟩ := (commitFrom_line _ _ _ _ _ hm hg).1 ht
            rw [(commitLine_step _ _ _ _ _ (by exact hN) hl hm hg).2 ⟨h2, rfl⟩]
            exact (ih _ r1 (by omega)).2 ⟨bs', r, h10, h11⟩
          · exact absurd h1 hg
          · exact absurd (h1 ▸ List.prefix_append _ _) hm

/-! ## tags -/

theorem badLine_tag (l : Bytes) (e : Err) : BadLine [b!"object "] [b!"tagger "] l e ↔
    (b!"object " <+: l ∧ BadRef (l.drop 7) e) ∨
    (b!"tagger " <+: l ∧ e = .badPerson ∧ ∀ p, ¬ PersonRead l p) := by
  constructor
  · intro h
    cases h with
    | ref w x _ hw h =>
      simp only [List.mem_cons, List.not_mem_nil, or_false] at hw
      subst hw
      exact .inl ⟨List.prefix_append _ _, h⟩
    | person w _ hw hl h =>
      simp only [List.mem_cons, List.not_mem_nil, or_false] at hw
      subst hw
      exact .inr ⟨hl, rfl, h⟩
  · rintro (⟨h1, h2⟩ | ⟨h1, rfl, h2⟩)
    · exact badLine_ref (w := b!"object ") (by simp) h1 h2
    · exact .person b!"tagger " _ (by simp) h1 h2

theorem tagLine_err (o : Tag) (l : Bytes) (s : Stream) (e : Err) (hl : l ≠ []) :
    tagLine o l s = .err e ↔ BadLine [b!"object "] [b!"tagger "] l e := by
  rw [badLine_tag]
  unfold tagLine
  simp only [hasPrefix_iff']
  by_cases h1 : b!"object " <+: l
  · have h2 : ¬ b!"tagger " <+: l := prefix_excl h1 (by decide) (by decide)
    rw [sliceFrom_prefix h1 7 rfl]
    simp only [h1, h2, if_true, Res.bind_ok, true_and, false_and, or_false]
    rw [ref_bind_err]
    simp
  by_cases h2 : b!"tagger " <+: l
  · have h3 : ¬ b!"tag " <+: l := prefix_excl h2 (by decide) (by decide)
    simp only [h1, h2, h3, if_true, if_false, true_and, false_and, false_or]
    rw [person_bind_err]
    simp
  simp only [h1, h2, if_false, false_and, or_false, iff_false]
  split
  · rename_i h
    rw [sliceFrom_prefix h 4 rfl]
    simp
  split
  · rename_i h
    rw [sliceFrom_prefix h 5 rfl]
    simp
  · rw [if_neg (by simpa using hl)]
    simp

theorem tagFrom_nil (o : Tag) : TagFrom o [] none o :=
  ⟨(lastValue_nil _ _ _).2 rfl, rfl, rfl, (lastValue_nil _ _ _).2 rfl, rfl⟩

theorem tagRun_err (o : Tag) (s : Stream) (e : Err) (hN : 2 ≤ s.bufsz) (hf : s.fin = .eof) :
    tagRun o s = .err e ↔ ∃ ls t, TagFault s.bufsz s.rest ls e ∧ TagFrom o ls none t := by
  induction s using stream_induct generalizing o with
  | h s ih =>
    rw [tagRun_eq o s hN]
    cases hr : Stream.readLine s with
    | panic => exact absurd hr (Stream.readLine_ne_panic s)
    | err e' =>
      obtain ⟨h1, h2⟩ := (Stream.readLine_err s e').1 hr
      rw [hf] at h2
      subst h2
      rw [h1]
      constructor
      · intro h; simp at h
      · rintro ⟨ls, t, ⟨r, l, r', hs, h, _⟩, _⟩
        obtain ⟨_, rfl⟩ := lines_empty hN hs
        exact (Line_nil hN h).elim
    | ok p =>
      obtain ⟨l, s1⟩ := p
      have hlt := Stream.readLine_lt s s1 l hN hr
      have hline := readLine_Line _ _ _ hr hN
      have hN1 : 2 ≤ s1.bufsz := by rw [hlt.bufsz]; exact hN
      have hf1 : s1.fin = .eof := by rw [hlt.fin]; exact hf
      simp only
      by_cases hl : l = []
      · subst hl
        obtain ⟨r1, f1, n1⟩ := s1
        simp only at hf1 hN1
        subst hf1
        rw [tagLine_blank]
        simp only [Res.bind_ok]
        rw [tagRun_done _ _ hN1]
        constructor
        · intro h; cases h
        · rintro ⟨ls, t, ⟨r, l, r', hs, h, hb⟩, _⟩
          rcases lines_cons hN hline hs with ⟨_, rfl⟩ | ⟨h1, _⟩
          · obtain ⟨rfl, _⟩ := Line_unique hN hline h
            exfalso
            rcases (badLine_tag _ _).1 hb with ⟨h, _⟩ | ⟨h, _⟩ <;> revert h <;> decide
          · exact absurd rfl h1
      · constructor
        · intro h
          rcases Res.bind_eq_err.1 h with h1 | ⟨⟨o', s2⟩, h1, h6⟩
          · exact ⟨[], o, ⟨_, l, _, .none _, hline, (tagLine_err _ _ _ _ hl).1 h1⟩, tagFrom_nil o⟩
          · obtain ⟨hs, rfl⟩ := (tagLine_step _ _ _ _ _ hl).1 h1
            obtain ⟨ls, t, ⟨r, l', r', h2, h3, h4⟩, h5⟩ := (ih s2 hlt o' hN1 hf1).1 h6
            rw [hlt.bufsz] at h2 h3
            exact ⟨l :: ls, t, ⟨r, l', r', .more _ _ _ _ _ hline hl h2, h3, h4⟩,
              (tagFrom_cons _ _ _ _ _).2 ⟨o', hs, h5⟩⟩
        · rintro ⟨ls, t, ⟨r, l', r', h2, h3, h4⟩, h5⟩
          rcases lines_cons hN hline h2 with ⟨_, rfl⟩ | ⟨_, ls', rfl, h2'⟩
          · obtain ⟨rfl, _⟩ := Line_unique hN hline h3
            rw [(tagLine_err o l s1 e hl).2 h4]
            rfl
          · obtain ⟨o', hs, ht⟩ := (tagFrom_cons _ _ _ _ _).1 h5
            rw [(tagLine_step _ _ _ _ _ hl).2 ⟨hs, rfl⟩]
            rw [← hlt.bufsz] at h2' h3
            exact (ih s1 hlt o' hN1 hf1).2 ⟨ls', t, ⟨r, l', r', h2', h3, h4⟩, ht⟩

/-! ## trees -/

theorem treeEntry_ok (s s' : Stream) (n : Bytes) (te : TreeEntry) (h : decodeTreeEntry s = .ok ((n, te), s')) :
    ∃ x : Entry, EntryOk x ∧ s.rest = x.text ++ s'.rest ∧ (n, te) = x.row ∧ s' = { s with rest := s'.rest } := by
  unfold decodeTreeEntry at h
  simp only [reader_readString, reader_readFull] at h
  obtain ⟨⟨x, a1⟩, g1, h⟩ := Res.bind_eq_ok.1 h
  obtain ⟨a, rfl, ha, hra, hfa, hba⟩ := Stream.readString_ok _ _ _ _ g1
  simp only [chop_concat, Res.bind_ok] at h
  obtain ⟨⟨y, a2⟩, g2, h⟩ := Res.bind_eq_ok.1 h
  obtain ⟨b, rfl, hb, hrb, hfb, hbb⟩ := Stream.readString_ok _ _ _ _ g2
  simp only [chop_concat, Res.bind_ok] at h
  obtain ⟨⟨sha, a3⟩, g3, h⟩ := Res.bind_eq_ok.1 h
  obtain ⟨c, g4, h⟩ := Res.bind_eq_ok.1 h
  simp only [Res.ok.injEq, Prod.mk.injEq] at h
  obtain ⟨⟨rfl, rfl⟩, rfl⟩ := h
  obtain ⟨hsha, rfl⟩ := (shaToCid_eq_ok _ _).1 g4
  have h3 : a2.rest = sha ++ a3.rest ∧ a3.fin = a2.fin ∧ a3.bufsz = a2.bufsz := by
    unfold Stream.readFull at g3
    split at g3
    · simp only [Res.ok.injEq, Prod.mk.injEq] at g3
      rw [← g3.1, ← g3.2]; simp
    · split at g3
      · split at g3 <;> simp at g3
      · simp at g3
  refine ⟨⟨a, b, sha⟩, ⟨ha, hb, hsha⟩, ?_, rfl, ?_⟩
  · simp only [Entry.text]
    rw [hra, hrb, h3.1]; simp
  · rw [Stream.mk.injEq]
    exact ⟨rfl, h3.2.1.trans (hfb.trans hfa), h3.2.2.trans (hbb.trans hba)⟩

/-- An entry that ends within its hash. -/
def CutHash (b : Bytes) : Prop :=
  ∃ mode name sha, SP ∉ mode ∧ NUL ∉ name ∧ sha ≠ [] ∧ sha.length < 20 ∧
    b = mode ++ SP :: (name ++ NUL :: sha)

theorem treeEntry_err (b : Bytes) (N : Nat) (e : Err) (he : e ≠ .eof) :
    decodeTreeEntry (σ := Stream) ⟨b, .eof, N⟩ = .err e ↔ e = .unexpectedEof ∧ CutHash b := by
  constructor
  · intro h
    unfold decodeTreeEntry at h
    simp only [reader_readString, reader_readFull] at h
    rcases Res.bind_eq_err.1 h with h | ⟨⟨x, s1⟩, h1, h⟩
    · exact absurd ((Stream.readString_err _ _ _).1 h).2 he
    obtain ⟨a, rfl, ha, hra, hf1, _⟩ := Stream.readString_ok _ _ _ _ h1
    simp only [chop_concat, Res.bind_ok] at h
    rcases Res.bind_eq_err.1 h with h | ⟨⟨y, s2⟩, h2, h⟩
    · exact absurd (((Stream.readString_err _ _ _).1 h).2.trans hf1) he
    obtain ⟨n, rfl, hn, hrn, hf2, _⟩ := Stream.readString_ok _ _ _ _ h2
    simp only [chop_concat, Res.bind_ok] at h
    have hf : s2.fin = .eof := hf2.trans hf1
    simp only at hra
    unfold Stream.readFull at h
    split at h
    · rename_i hl
      rcases Res.bind_eq_err.1 h with h | ⟨c, h4, h⟩
      · cases h
      · simp only [Res.ok.injEq] at h4
        subst h4
        rcases Res.bind_eq_err.1 h with h | ⟨c, h4, h⟩
        · have := ((shaToCid_err _ _).1 h).2
          simp only [List.length_take] at this
          omega
        · cases h
    · rename_i hl
      split at h
      · simp only [Res.bind_err, Res.err.injEq] at h
        exact absurd h.symm he
      · rename_i hne
        simp only [Res.bind_err, Res.err.injEq] at h
        refine ⟨h.symm, a, n, s2.rest, ha, hn, hne, by omega, ?_⟩
        rw [hra, hrn]
  · rintro ⟨rfl, mode, name, sha, hm, hn, hne, hl, rfl⟩
    unfold decodeTreeEntry
    simp only [reader_readString, reader_readFull]
    rw [Stream.readString_delim _ _ _ _ _ hm]
    simp only [Res.bind_ok, chop_concat]
    rw [Stream.readString_delim _ _ _ _ _ hn]
    simp only [Res.bind_ok, chop_concat]
    unfold Stream.readFull
    rw [if_neg (by simpa using hl)]
    simp [hne]

theorem treeAdd_err (t : Tree) (n : Bytes) (te : TreeEntry) (e : Err) (h : TreeInv t) :
    treeAdd t n te = .err e ↔ e = .repeatedKey ∧ n ∈ t.t.map (·.1) := by
  unfold treeAdd
  by_cases hn : n ∈ t.t.map (·.1)
  · have : ∃ x, mapGet t.m n = some x := by
      rw [h.lookup]
      cases hf : t.t.find? (fun r => r.1 = n) with
      | some r => exact ⟨r.2, rfl⟩
      | none =>
        obtain ⟨r, hr, rfl⟩ := List.mem_map.1 hn
        have := List.find?_eq_none.1 hf r hr
        simp at this
    obtain ⟨x, hx⟩ := this
    rw [hx]
    simp only [Res.err.injEq]
    exact ⟨fun h => ⟨h.symm, hn⟩, fun h => h.1.symm⟩
  · rw [mapGet_none_of t h n hn]
    simp [hn]

/-- What can be wrong behind the entries with the names `ns`. -/
def TreeBad (ns : List Bytes) (tail : Bytes) (e : Err) : Prop :=
  (e = .unexpectedEof ∧ CutHash tail) ∨
  (e = .repeatedKey ∧ ∃ (x : Entry) (r : Bytes), EntryOk x ∧ tail = x.text ++ r ∧ x.name ∈ ns)

theorem treeRun_bad (t : Tree) (b : Bytes) (N : Nat) (e : Err) (ht : TreeInv t)
    (h : TreeBad (t.t.map (·.1)) b e) : treeRun t ⟨b, .eof, N⟩ = .err e := by
  rw [treeRun_eq]
  rcases h with ⟨rfl, h⟩ | ⟨rfl, x, r, hx, rfl, hn⟩
  · rw [(treeEntry_err b N .unexpectedEof (by decide)).2 ⟨rfl, h⟩]
  · rw [decodeTreeEntry_text _ _ _ _ hx]
    simp only [Entry.row]
    rw [(treeAdd_err t x.name _ _ ht).2 ⟨rfl, hn⟩]
    rfl

theorem treeRun_err (t : Tree) (s : Stream) (e : Err) (hf : s.fin = .eof) (ht : TreeInv t)
    (h : treeRun t s = .err e) :
    ∃ es tail, s.rest = treeBody es ++ tail ∧ (∀ x ∈ es, EntryOk x) ∧
      (t.t.map (·.1) ++ es.map (·.name)).Nodup ∧ TreeBad (t.t.map (·.1) ++ es.map (·.name)) tail e := by
  induction s using stream_induct generalizing t with
  | h s ih =>
    rw [treeRun_eq] at h
    obtain ⟨b, f, N⟩ := s
    simp only at hf
    subst hf
    cases hd : decodeTreeEntry (σ := Stream) ⟨b, .eof, N⟩ with
    | panic => rw [hd] at h; cases h
    | err e' =>
      by_cases he : e' = .eof
      · subst he; rw [hd] at h; cases h
      · have : e = e' := by rw [hd] at h; cases e' <;> simp_all
        subst this
        obtain ⟨rfl, hc⟩ := (treeEntry_err b N e he).1 hd
        exact ⟨[], b, rfl, by simp, by simpa using ht.nodup, .inl ⟨rfl, hc⟩⟩
    | ok p =>
      obtain ⟨⟨n, te⟩, s'⟩ := p
      have hlt := decodeTreeEntry_lt _ _ _ hd
      obtain ⟨x, hx, hrest, hrow, hs⟩ := treeEntry_ok _ _ _ _ hd
      rw [hd] at h
      simp only [Entry.row, Prod.mk.injEq] at hrow
      obtain ⟨rfl, rfl⟩ := hrow
      simp only at h hrest
      rcases Res.bind_eq_err.1 h with h | ⟨t', h1, h⟩
      · obtain ⟨rfl, hn⟩ := (treeAdd_err _ _ _ _ ht).1 h
        exact ⟨[], b, rfl, by simp, by simpa using ht.nodup, .inr ⟨rfl, x, s'.rest, hx, hrest, by simpa using hn⟩⟩
      · obtain ⟨hnone, rfl⟩ := treeAdd_ok _ _ _ _ h1
        obtain ⟨es, tail, h2, h3, h4, h5⟩ := ih s' hlt _ hlt.fin (treeInv_add _ _ _ ht hnone) h
        refine ⟨x :: es, tail, ?_, ?_, ?_, ?_⟩
        · simp only
          rw [hrest, h2]; simp [treeBody]
        · intro y hy
          rcases List.mem_cons.1 hy with rfl | hy
          · exact hx
          · exact h3 y hy
        · simpa using h4
        · simpa using h5

/-! ## sizes -/

theorem readNum_err (b : Bytes) (N : Nat) (e : Err) :
    readNum (σ := Stream) ⟨b, .eof, N⟩ = .err e ↔
      (e = .eof ∧ NUL ∉ b) ∨ (e = .atoi ∧ ∃ d r, b = d ++ NUL :: r ∧ NUL ∉ d ∧ ∀ z, ¬ SizeField d z) := by
  have hat : ∀ d e, atoi d = .err e → e = .atoi := by
    intro d e h
    unfold atoi at h
    repeat' split at h
    all_goals first | (simpa [eq_comm] using h) | cases h
  constructor
  · intro h
    unfold readNum at h
    rcases Res.bind_eq_err.1 h with h | ⟨⟨x, s1⟩, h1, h⟩
    · obtain ⟨h1, h2⟩ := (Stream.readString_err _ _ _).1 h
      exact .inl ⟨h2, h1⟩
    obtain ⟨d, rfl, hd, hr, hf, _⟩ := Stream.readString_ok _ _ _ _ h1
    simp only [chop_concat, Res.bind_ok] at h
    rcases Res.bind_eq_err.1 h with h | ⟨z, h2, h⟩
    · refine .inr ⟨hat _ _ h, d, s1.rest, hr, hd, fun z hz => ?_⟩
      rw [(atoi_iff d z).2 hz.2] at h
      cases h
    · cases h
  · rintro (⟨rfl, h⟩ | ⟨rfl, d, r, rfl, hd, hno⟩)
    · unfold readNum
      simp only [reader_readString]
      rw [(Stream.readString_err NUL ⟨b, .eof, N⟩ .eof).2 ⟨h, rfl⟩]
      rfl
    · rw [readNum_stream _ _ _ _ hd]
      cases h : atoi d with
      | ok z => exact absurd ⟨hd, (atoi_iff d z).1 h⟩ (hno z)
      | err e => rw [hat _ _ h]; rfl
      | panic => have := clean_atoi d; rw [h] at this; simp [Res.Clean] at this

end Verif
