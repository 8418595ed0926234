import Verif.Props.Verify

/-!
# C109, with headers of other signatures
-/

namespace Verif.Props

open Verif Spec

/-- A line that is no continuation begins anew. -/
theorem payload_reset (s : SigPlace) (ls : List Bytes) (h : ∀ l, ls.head? = some l → l.head? ≠ some SP) :
    payloadLines s ls = payloadLines .none ls ∧ signatureLines s ls = signatureLines .none ls := by
  cases ls with
  | nil => exact ⟨rfl, rfl⟩
  | cons l ls =>
    have h1 : sigPlace s l = sigPlace .none l := by
      unfold sigPlace
      rw [if_neg (h l rfl), if_neg (h l rfl)]
    exact ⟨by rw [payloadLines, payloadLines, h1], by rw [signatureLines, signatureLines, h1]⟩

theorem payload_foreign (xs ys : List Bytes) (h : ∀ l ∈ xs, ∃ l', l = SP :: l') :
    payloadLines .foreign (xs ++ ys) = payloadLines .foreign ys ∧
      signatureLines .foreign (xs ++ ys) = signatureLines .foreign ys := by
  induction xs with
  | nil => exact ⟨rfl, rfl⟩
  | cons x xs ih =>
    obtain ⟨ih1, ih2⟩ := ih fun l hl => h l (by simp [hl])
    obtain ⟨x', rfl⟩ := h x (by simp)
    have hi : sigPlace .foreign (SP :: x') = .foreign := by
      unfold sigPlace
      rw [if_neg (spaced_prefix _ _ _ (by decide)), if_neg (spaced_prefix _ _ _ (by decide)), if_pos List.head?_cons]
    constructor
    · rw [List.cons_append, payloadLines, hi, if_neg (by decide), ih1]; rfl
    · rw [List.cons_append, signatureLines, hi, if_neg (by decide), ih2]; rfl

/-- The lines of an extra header: the first is no continuation, and none is empty. -/
theorem extra_lines (more : Bytes) {x : Extra} (h : x.Ok) :
    (∀ l ∈ x.lines more, l ≠ [] ∧ LF ∉ l) ∧ ∃ l r, x.lines more = l :: r ∧ l.head? ≠ some SP ∧
      (x.isSigned = false → sigPlace .none l = .foreign ∧ ∀ l' ∈ r, ∃ y, l' = SP :: y) := by
  cases hs : x.isSigned with
  | true =>
    obtain ⟨h1, l, r, h2, h3⟩ := extra_clean more h (by
      rintro k v rfl hp
      simp [Extra.isSigned, hp] at hs)
    exact ⟨fun l hl => ⟨(h1 l hl).1, (h1 l hl).2.1⟩, l, r, h2, h3, fun h => absurd h (by decide)⟩
  | false =>
    cases x with
    | mergetag t => simp [Extra.isSigned] at hs
    | other k v =>
      have hp : b!"gpgsig" <+: k := by simpa [Extra.isSigned] using hs
      obtain ⟨hk0, hk1, hk2, hk3⟩ := h
      obtain ⟨x, r, he, hx, hxl, hr⟩ := extraLines_head k v
      refine ⟨?_, k ++ x, r, he, ?_, fun _ => ⟨?_, fun l' hl' => ?_⟩⟩
      · show ∀ l ∈ extraLines k v, _
        rw [he]
        intro l hl
        rcases List.mem_cons.1 hl with rfl | hl
        · exact ⟨by simp [hk0], by rw [List.mem_append]; exact fun h => h.elim hk2 hxl⟩
        · obtain ⟨l', rfl, hl'⟩ := hr l hl
          refine ⟨by simp, fun h => ?_⟩
          rcases List.mem_cons.1 h with h | h
          · exact absurd h (by decide)
          · exact hl' h
      · obtain ⟨t, rfl⟩ := hp
        simp [SP]
      · have h1 : ¬ b!"gpgsig " <+: k ++ x := by
          obtain ⟨t, rfl⟩ := hp
          rintro ⟨z, hz⟩
          have hz' : SP :: z = t ++ x := by
            have : b!"gpgsig" ++ (SP :: z) = b!"gpgsig" ++ (t ++ x) := by rw [← List.append_assoc _ t x, ← hz]; rfl
            exact List.append_cancel_left this
          cases t with
          | nil => exact hk3 (by decide)
          | cons c t =>
            simp only [List.cons_append, List.cons.injEq] at hz'
            exact hk1 (by rw [hz'.1]; simp)
        unfold sigPlace
        rw [if_neg h1, if_pos (hp.trans (List.prefix_append k x))]
      · obtain ⟨y, hy, _⟩ := hr l' hl'
        exact ⟨y, hy⟩

theorem extras_head (more : Bytes) (xs : List Extra) (h : ∀ x ∈ xs, x.Ok) (ys : List Bytes)
    (hy : ∀ l, ys.head? = some l → l.head? ≠ some SP) :
    ∀ l, (xs.flatMap (Extra.lines more) ++ ys).head? = some l → l.head? ≠ some SP := by
  cases xs with
  | nil => exact hy
  | cons x xs =>
    obtain ⟨_, l, r, he, hl, _⟩ := extra_lines more (h x (by simp))
    intro l' hl'
    rw [List.flatMap_cons, he] at hl'
    simp only [List.cons_append, List.head?_cons, Option.some.injEq] at hl'
    exact hl' ▸ hl

/-- Of the extra headers, git takes for signed those that do not begin like a signature. -/
theorem extras_payload (more : Bytes) (xs : List Extra) (h : ∀ x ∈ xs, x.Ok) (ys : List Bytes)
    (hy : ∀ l, ys.head? = some l → l.head? ≠ some SP) :
    payloadLines .none (xs.flatMap (Extra.lines more) ++ ys) =
        (xs.filter Extra.isSigned).flatMap (Extra.lines more) ++ payloadLines .none ys ∧
      signatureLines .none (xs.flatMap (Extra.lines more) ++ ys) = signatureLines .none ys := by
  induction xs with
  | nil => exact ⟨rfl, rfl⟩
  | cons x xs ih =>
    have hxs : ∀ x ∈ xs, x.Ok := fun x hx => h x (by simp [hx])
    obtain ⟨ih1, ih2⟩ := ih hxs
    have hx := h x (by simp)
    rw [List.flatMap_cons, List.append_assoc]
    cases hs : x.isSigned with
    | true =>
      have hc := (extra_clean more hx (by
        rintro k v rfl hp
        simp [Extra.isSigned, hp] at hs)).1
      obtain ⟨h1, h2⟩ := payload_plain (s := .none) (x.lines more) (xs.flatMap (Extra.lines more) ++ ys)
        (fun l hl => (hc l hl).2.2) rfl
      rw [List.filter_cons_of_pos hs, List.flatMap_cons, h1, h2, ih1, ih2, List.append_assoc]
      exact ⟨rfl, rfl⟩
    | false =>
      obtain ⟨_, l, r, he, _, hf⟩ := extra_lines more hx
      obtain ⟨hp, hr⟩ := hf hs
      obtain ⟨h1, h2⟩ := payload_foreign r (xs.flatMap (Extra.lines more) ++ ys) hr
      obtain ⟨h3, h4⟩ := payload_reset .foreign _ (extras_head more xs hxs ys hy)
      rw [List.filter_cons_of_neg (by simp [hs]), he, List.cons_append, payloadLines, signatureLines, hp, if_neg (by decide),
        if_neg (by decide), h1, h2, h3, h4, ih1, ih2]
      exact ⟨rfl, rfl⟩

/-- Git takes a commit with extra headers before and behind the signature apart. -/
theorem extras_signed (more : Bytes) {f : SigFormat} {ls : List Bytes} (hl : ∀ l ∈ ls, LF ∉ l) (front : List Bytes)
    (xs ys : List Extra) (msg : Bytes) (hfr : ∀ l ∈ front, CleanLine l) (hx : ∀ x ∈ xs, x.Ok) (hy : ∀ x ∈ ys, x.Ok) :
    GitSigned (unlines (front ++ xs.flatMap (Extra.lines more) ++
        (sigHeaderLines (some (f, ls)) ++ ys.flatMap (Extra.lines more))) ++ LF :: msg)
      (unlines (front ++ ((xs ++ ys).filter Extra.isSigned).flatMap (Extra.lines more)) ++ LF :: msg) (armourText f ls) := by
  have hyh := extras_head more ys hy [] (by simp)
  rw [List.append_nil] at hyh
  obtain ⟨a1, a2⟩ := payload_plain (s := .none) front
    (xs.flatMap (Extra.lines more) ++ (sigHeaderLines (some (f, ls)) ++ ys.flatMap (Extra.lines more)))
    (fun l h => (hfr l h).2.2) rfl
  obtain ⟨b1, b2⟩ := extras_payload more xs hx (sigHeaderLines (some (f, ls)) ++ ys.flatMap (Extra.lines more)) (by
    intro l h
    simp only [sigHeaderLines, List.cons_append, List.head?_cons, Option.some.injEq] at h
    subst h
    simp [SP])
  obtain ⟨c1, c2⟩ := payload_spaced (ls ++ [f.last]) (ys.flatMap (Extra.lines more))
  obtain ⟨d1, d2⟩ := payload_reset .sig _ hyh
  obtain ⟨e1, e2⟩ := extras_payload more ys hy [] (by simp)
  rw [List.append_nil] at e1 e2
  have hp : b!"gpgsig " <+: b!"gpgsig " ++ f.first := List.prefix_append _ _
  have hi : sigPlace .none (b!"gpgsig " ++ f.first) = .sig := by unfold sigPlace; rw [if_pos hp]
  refine ⟨_, msg, ?_, rfl, ?_, ?_⟩
  · intro l h
    simp only [List.mem_append] at h
    rcases h with (h | h) | (h | h)
    · exact ⟨(hfr l h).1, (hfr l h).2.1⟩
    · obtain ⟨x, hxx, h⟩ := List.mem_flatMap.1 h
      exact (extra_lines more (hx x hxx)).1 l h
    · exact sigLines_clean hl l h
    · obtain ⟨x, hxx, h⟩ := List.mem_flatMap.1 h
      exact (extra_lines more (hy x hxx)).1 l h
  · rw [List.append_assoc, a1, b1, show sigHeaderLines (some (f, ls)) = (b!"gpgsig " ++ f.first) :: (ls ++ [f.last]).map (SP :: ·)
      from rfl, List.cons_append, payloadLines, hi, if_neg (by decide), c1, d1, e1]
    simp [payloadLines]
  · rw [List.append_assoc, a2, b2, show sigHeaderLines (some (f, ls)) = (b!"gpgsig " ++ f.first) :: (ls ++ [f.last]).map (SP :: ·)
      from rfl, List.cons_append, signatureLines, hi, if_pos rfl, if_pos hp, c2, d2, e2]
    simp [signatureLines, armourText]

theorem unsigned_body (more : Bytes) (g : MadeCommit) (xs : List Extra) :
    (unsigned g xs).body more = unlines (madeFront more g ++ xs.flatMap (Extra.lines more)) ++ LF :: g.msg := by
  rw [MadeCommit.body, lines_front]
  simp [unsigned, sigHeaderLines, madeFront]

/-- What git takes for signed is the commit as it was before it was signed, without the
extra headers that begin like a signature. -/
theorem verify_any_made (more : Bytes) (g : MadeCommit) (h : g.Ok) {f : SigFormat} {ls : List Bytes} (hs : g.sig = some (f, ls)) :
    GitSigned (g.body more) ((unsigned g (g.extra.filter Extra.isSigned)).body more) (armourText f ls) := by
  have := extras_signed more (f := f) (h.sig f ls hs).2 (madeFront more g) g.extra [] g.msg (front_clean more h) h.extra (by simp)
  rw [List.flatMap_nil, List.append_nil, List.append_nil, ← hs] at this
  rw [unsigned_body]
  exact this

theorem mergesFirst_filter (xs : List Extra) :
    (xs.filter Extra.isMerge ++ xs.filter fun x => !x.isMerge).filter Extra.isSigned = mergesFirst (xs.filter Extra.isSigned) := by
  unfold mergesFirst
  simp only [List.filter_append, List.filter_filter, Bool.and_comm]

/-- In what Encode writes for any commit that git made and signed, git finds the same
signature, and as signed the same text with the merged tags before the other headers. The
signature still verifies exactly if the merged tags already were before the others that
are signed. -/
theorem verify_any (N : Nat) (hN : 4096 ≤ N) (more : Bytes) (g : MadeCommit) (h : g.Ok) (hf : LinesFit N (g.lines more))
    (hr : ReadableSig g.sig) {f : SigFormat} {ls : List Bytes} (hs : g.sig = some (f, ls))
    (out : Bytes) (hout : Framed b!"commit" (g.body more) out) (hlen : (g.body more).length < 2 ^ 63)
    (payload sig : Bytes) (hg : GitSigned (g.body more) payload sig) :
    ∃ c out' body' payload', parseObject (σ := Stream) ⟨out, .eof, N⟩ = .ok (.commit c) ∧
      encObj (.commit c) = .ok out' ∧ Framed b!"commit" body' out' ∧ GitSigned body' payload' sig ∧
      payload' = (unsigned g (mergesFirst (g.extra.filter Extra.isSigned))).body more ∧
      (payload' = payload ↔ ∃ (ms : List MadeTag) (os : List (Bytes × Bytes)),
        g.extra.filter Extra.isSigned = ms.map .mergetag ++ os.map (fun o => .other o.1 o.2)) := by
  obtain ⟨rfl, rfl⟩ := verify_unique hg (verify_any_made more g h hs)
  refine ⟨g.node more, _, _, _, ((written_commit N hN more g h hf out hout hlen).1 hr).1, node_encodes more g h hr,
    framed_withHeader _ _, ?_, rfl, ?_⟩
  · have := extras_signed more (f := f) (h.sig f ls hs).2 (madeFront more g) (g.extra.filter Extra.isMerge)
      (g.extra.filter fun x => !x.isMerge) g.msg (front_clean more h) (fun x h' => h.extra x (List.mem_filter.1 h').1)
      (fun x h' => h.extra x (List.mem_filter.1 h').1)
    rw [mergesFirst_filter, ← hs] at this
    rw [unsigned_body]
    exact this
  · have hok : (unsigned g (g.extra.filter Extra.isSigned)).Ok :=
      ⟨h.tree, h.parents, h.author, h.committer, h.encoding, fun x hx => h.extra x (List.mem_filter.1 hx).1, by simp [unsigned]⟩
    have hf0 : LinesFit N ((unsigned g (g.extra.filter Extra.isSigned)).lines more) := by
      intro l hl
      refine hf l ?_
      rw [lines_front] at hl ⊢
      simp only [List.mem_append] at hl ⊢
      rcases hl with (hl | hl) | hl
      · exact .inl (.inl hl)
      · obtain ⟨x, hx, hl⟩ := List.mem_flatMap.1 hl
        exact .inl (.inr (List.mem_flatMap.2 ⟨x, (List.mem_filter.1 hx).1, hl⟩))
      · simp [unsigned, sigHeaderLines] at hl
    have hlen0 : ((unsigned g (g.extra.filter Extra.isSigned)).body more).length < 2 ^ 63 := by
      refine Nat.lt_of_le_of_lt ?_ hlen
      have hsub : ∀ xs : List Extra, (unlines ((xs.filter Extra.isSigned).flatMap (Extra.lines more))).length ≤
          (unlines (xs.flatMap (Extra.lines more))).length := by
        intro xs
        induction xs with
        | nil => exact Nat.le_refl _
        | cons x xs ih =>
          rw [List.flatMap_cons, unlines_append, List.length_append]
          by_cases hx : x.isSigned = true
          · rw [List.filter_cons_of_pos hx, List.flatMap_cons, unlines_append, List.length_append]
            omega
          · rw [List.filter_cons_of_neg hx]
            omega
      have := hsub g.extra
      rw [unsigned_body, MadeCommit.body, lines_front]
      simp only [unlines_append, List.length_append, List.length_cons]
      omega
    have hw := ((written_commit N hN more _ hok hf0 _ (framed_withHeader _ _) hlen0).1 trivial).2
    rw [node_encodes more _ hok trivial] at hw
    have e : unlines (againLines more (unsigned g (g.extra.filter Extra.isSigned))) ++
          LF :: (unsigned g (g.extra.filter Extra.isSigned)).msg =
        (unsigned g (mergesFirst (g.extra.filter Extra.isSigned))).body more := by
      rw [MadeCommit.body, lines_front]
      simp [unsigned, sigHeaderLines, madeFront, mergesFirst, againLines]
    rw [e] at hw
    constructor
    · intro he
      obtain ⟨ms, os, h5, _⟩ := hw.1 (by rw [he])
      exact ⟨ms, os, h5⟩
    · rintro ⟨ms, os, h5⟩
      exact withHeader_inj (Res.ok.inj (hw.2 ⟨ms, os, h5, fun h => absurd rfl h⟩))

/-! ## Cases that meet the hypotheses -/

def sha256Extra : Extra := .other b!"gpgsig-sha256" b!"a\nb"

/-- A signed merge with a signature for the other hash before the merged tag: that is moved
behind it, and the signature still verifies. Here `verify_exact` does not apply. -/
example : ∃ g : MadeCommit, g = { madeCommit [] .pgp pgpLines with extra := [sha256Extra, .mergetag madeTag, hgExtra] } ∧
    g.Ok ∧ LinesFit 4096 (g.lines marks) ∧ ReadableSig g.sig ∧ ¬ NoForeignSig g.extra ∧ mergesFirst g.extra ≠ g.extra ∧
    ∃ (ms : List MadeTag) (os : List (Bytes × Bytes)),
      g.extra.filter Extra.isSigned = ms.map .mergetag ++ os.map (fun o => .other o.1 o.2) := by
  have h := madeCommit_ok [] (by simp) pgpLines_ok.1 (by decide)
  refine ⟨_, rfl, ⟨h.tree, h.parents, h.author, h.committer, h.encoding, ?_, h.sig⟩, ?_, ⟨rfl, pgpLines_ok.2.1⟩, ?_, ?_,
    [madeTag], [(b!"HG:extra", b!"a\nb")], ?_⟩
  · intro x hx
    simp only [List.mem_cons, List.not_mem_nil, or_false] at hx
    rcases hx with rfl | rfl | rfl
    · exact ⟨by decide, by decide, by decide, by decide⟩
    · exact madeTag_ok
    · exact ⟨by decide, by decide, by decide, by decide⟩
  · unfold LinesFit
    decide +kernel
  · intro h
    exact h b!"gpgsig-sha256" b!"a\nb" (by simp [sha256Extra]) (by decide)
  · intro h
    have := congrArg List.head? h
    rw [show (mergesFirst [sha256Extra, .mergetag madeTag, hgExtra]).head? = some (.mergetag madeTag) from rfl] at this
    simp [sha256Extra] at this
  · simp [sha256Extra, hgExtra, Extra.isSigned]

end Verif.Props
