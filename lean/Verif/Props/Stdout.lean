import Verif.Model.Stdout
import Verif.Spec.Stdout
import Verif.Proofs.AcceptTag
import Verif.Props.Accept
import Verif.Props.Chunks

/-!
# C59: what decoding prints
-/

namespace Verif

open Spec

theorem Prints.bind_lift {α β : Type} (r : Res α) (f : α → Prints β) (h : ∀ a, (f a).out = []) :
    ((Prints.lift r).bind f).out = [] := by
  cases r with
  | ok a => exact h a
  | err e => rfl
  | panic => rfl

theorem Prints.bind_res {α β : Type} (x : Prints α) (f : α → Prints β) :
    (x.bind f).res = x.res >>= fun a => (f a).res := by
  unfold Prints.bind
  cases x.res <;> rfl

theorem Prints.bind_ok_out {α β : Type} {x : Prints α} {a : α} (f : α → Prints β) (h : x.res = .ok a) :
    (x.bind f).out = x.out ++ (f a).out := by
  unfold Prints.bind; rw [h]

theorem Prints.do_res {α β : Type} (x : Prints α) (f : α → Prints β) :
    (x >>= f).res = x.res >>= fun a => (f a).res := Prints.bind_res x f

section
variable {σ : Type} [Reader σ]

/-- The results are those of the model without output. -/
theorem tagLineOut_res (o : Tag) (l : Bytes) (s : σ) : (tagLineOut o l s).res = tagLine o l s := by
  unfold tagLineOut tagLine
  repeat' split
  all_goals first
    | (simp only [Prints.do_res]; rfl)

theorem tagLoopOut_res (f : Nat) (o : Tag) (s : σ) : (tagLoopOut f o s).res = tagLoop f o s := by
  induction f generalizing o s with
  | zero => rfl
  | succ f ih =>
    unfold tagLoopOut tagLoop
    cases h : Reader.readLine s with
    | err e => cases e <;> rfl
    | panic => rfl
    | ok p =>
      obtain ⟨l, s'⟩ := p
      simp only [Prints.bind_res, tagLineOut_res, ih]

theorem decodeTagOut_res (s : σ) : (decodeTagOut s).res = decodeTag s := by
  unfold decodeTagOut decodeTag
  simp only [Prints.bind_res, tagLoopOut_res]
  rfl

theorem parseObjectOut_res (s : σ) : (parseObjectOut s).res = parseObject s := by
  unfold parseObjectOut parseObject
  rw [Prints.bind_res]
  show (readType s >>= _) = _
  congr 1
  funext p
  obtain ⟨w, s'⟩ := p
  simp only
  repeat' split
  all_goals first
    | rfl
    | (rw [Prints.bind_res, decodeTagOut_res]; rfl)
    | (rw [Prints.bind_res]; rfl)

theorem decodeOut_res {β : Type} (na : Sink β) (s : σ) : (decodeOut na s).res = decode na s := by
  unfold decodeOut decode
  rw [Prints.bind_res]
  show (readType s >>= _) = _
  congr 1
  funext p
  obtain ⟨w, s'⟩ := p
  simp only
  repeat' split
  all_goals first
    | rfl
    | (rw [Prints.bind_res, decodeTagOut_res]; rfl)
    | (rw [Prints.bind_res]; rfl)

/-- `Decode` and `ParseObject` print the same. -/
theorem decodeOut_out {β : Type} (na : Sink β) (s : σ) : (decodeOut na s).out = (parseObjectOut s).out := by
  have h0 : ∀ {α γ : Type} (x : Prints α) (g : α → Res γ), (x.bind fun a => .lift (g a)).out = x.out := by
    intro α γ x g
    unfold Prints.bind
    cases x.res <;> simp [Prints.lift]
  unfold decodeOut parseObjectOut
  cases readType s with
  | err e => rfl
  | panic => rfl
  | ok p =>
    rw [Prints.bind_ok_out _ rfl, Prints.bind_ok_out _ rfl]
    congr 1
    repeat' split
    all_goals first
      | rw [h0, h0]
      | rfl

end

/-- A known line prints nothing, an unknown one prints itself. -/
theorem tagLineOut_out (o : Tag) (l : Bytes) (s : Stream) (hl : l ≠ []) :
    (tagLineOut o l s).out = unhandledText [l] := by
  have hw : ∀ w ∈ tagWords, w <+: l → unhandledText [l] = [] := by
    intro w hw h
    unfold unhandledText
    rw [List.filter_cons_of_neg]
    · rfl
    · simp only [List.all_eq_true, Bool.not_eq_true', Classical.not_forall]
      exact ⟨w, hw, by simpa using h⟩
  have hb : ∀ {α : Type} (r : Res α) (g : α → Tag × Stream),
      (Prints.lift r >>= fun x => (pure (g x) : Prints (Tag × Stream))).out = [] :=
    fun r g => Prints.bind_lift r _ fun _ => rfl
  unfold tagLineOut
  simp only [hasPrefix_iff']
  split
  · rename_i h
    rw [hw _ (by decide) h]
    exact Prints.bind_lift _ _ fun _ => Prints.bind_lift _ _ fun _ => Prints.bind_lift _ _ fun _ => rfl
  split
  · rename_i h
    rw [hw _ (by decide) h]
    exact Prints.bind_lift _ _ fun _ => rfl
  split
  · rename_i h
    rw [hw _ (by decide) h]
    exact Prints.bind_lift _ _ fun _ => rfl
  split
  · rename_i h
    rw [hw _ (by decide) h]
    exact Prints.bind_lift _ _ fun _ => rfl
  rename_i h1 h2 h3 h4
  rw [if_neg (by simpa using hl)]
  have : tagWords.all (fun w => !w.isPrefixOf l) = true := by
    simp only [tagWords, List.all_cons, List.all_nil, Bool.and_true, Bool.and_eq_true,
      Bool.not_eq_true', Bool.eq_false_iff, ne_eq, List.isPrefixOf_iff_prefix]
    exact ⟨h1, h4, h2, h3⟩
  unfold unhandledText
  rw [List.filter_cons_of_pos (by exact this)]
  show (b!"unhandled line: " ++ [SP] ++ l ++ [LF]) ++ [] = _
  simp

theorem unhandledText_cons (l : Bytes) (ls : List Bytes) :
    unhandledText (l :: ls) = unhandledText [l] ++ unhandledText ls := by
  unfold unhandledText
  simp only [List.filter_cons]
  split <;> simp

/-- A line is bad exactly if handling it fails. -/
theorem badTagLine_iff (o : Tag) (l : Bytes) (s : Stream) (hl : l ≠ []) :
    ¬ BadTagLine l ↔ ∃ o', tagLine o l s = .ok (o', s) := by
  have key : (∃ o', tagLine o l s = .ok (o', s)) ↔ ∃ o', TagStep o l o' := by
    constructor
    · rintro ⟨o', h⟩; exact ⟨o', ((tagLine_step _ _ _ _ _ hl).1 h).1⟩
    · rintro ⟨o', h⟩; exact ⟨o', (tagLine_step _ _ _ _ _ hl).2 ⟨h, rfl⟩⟩
  rw [key]
  unfold TagStep BadTagLine
  split
  · rename_i h
    have h2 : ¬ b!"tagger " <+: l := prefix_excl h (by decide) (by decide)
    simp only [h, h2, true_and, false_and, or_false, Classical.not_not]
    constructor
    · rintro ⟨y, hy⟩; exact ⟨_, y, hy, rfl⟩
    · rintro ⟨_, y, hy, _⟩; exact ⟨y, hy⟩
  split
  · rename_i h0 h
    have h2 : ¬ b!"tagger " <+: l := prefix_excl h (by decide) (by decide)
    simp [h0, h2]
  split
  · rename_i h0 h1 h
    simp only [h0, h, true_and, false_and, false_or, Classical.not_not]
    constructor
    · rintro ⟨y, hy⟩; exact ⟨_, y, hy, rfl⟩
    · rintro ⟨_, y, hy, _⟩; exact ⟨y, hy⟩
  split
  · rename_i h0 h1 h2 h
    simp [h0, h2]
  · rename_i h0 h1 h2 h
    simp [h0, h2]

theorem tagLoopOut_end (f : Nat) (o : Tag) (s : Stream) (h : s.rest = []) : (tagLoopOut f o s).out = [] := by
  cases f with
  | zero => rfl
  | succ f =>
    unfold tagLoopOut
    have : Reader.readLine s = .err s.fin := (Stream.readLine_err s s.fin).2 ⟨h, rfl⟩
    rw [this]
    cases s.fin <;> rfl

theorem tagLoopOut_out (f : Nat) (o : Tag) (s : Stream) (hN : 2 ≤ s.bufsz) (hf : s.rest.length < f) :
    ∃ ls m pre, Head s.bufsz s.rest ls m ∧ BeforeBad ls pre ∧ (tagLoopOut f o s).out = unhandledText pre := by
  induction f generalizing o s with
  | zero => omega
  | succ f ih =>
    cases hr : Stream.readLine s with
    | panic => exact absurd hr (Stream.readLine_ne_panic s)
    | err e =>
      obtain ⟨h1, h2⟩ := (Stream.readLine_err s e).1 hr
      refine ⟨[], none, [], by rw [h1]; exact .done, ⟨[], rfl, by simp, by simp⟩, ?_⟩
      exact tagLoopOut_end _ _ _ h1
    | ok p =>
      obtain ⟨l, s1⟩ := p
      have hlt := Stream.readLine_lt s s1 l hN hr
      have hline := readLine_Line _ _ _ hr hN
      have hN1 : 2 ≤ s1.bufsz := by rw [hlt.bufsz]; exact hN
      have hlen := hlt.lt
      have hstep : tagLoopOut (f + 1) o s = (tagLineOut o l s1).bind fun p => tagLoopOut f p.1 p.2 := by
        rw [tagLoopOut, reader_readLine, hr]
      rw [hstep]
      by_cases hl : l = []
      · subst hl
        refine ⟨[], some s1.rest, [], .blank _ _ hline, ⟨[], rfl, by simp, by simp⟩, ?_⟩
        show ((tagLineOut o [] s1).bind fun p => tagLoopOut f p.1 p.2).out = []
        cases hra : Stream.readAll s1 with
        | err e =>
          have : (tagLineOut o [] s1) = ⟨[], .err e⟩ := by
            show (Prints.lift (Stream.readAll s1) >>= _) = _
            rw [hra]; rfl
          rw [this]; rfl
        | panic =>
          have : (tagLineOut o [] s1) = ⟨[], .panic⟩ := by
            show (Prints.lift (Stream.readAll s1) >>= _) = _
            rw [hra]; rfl
          rw [this]; rfl
        | ok q =>
          obtain ⟨m, s2⟩ := q
          have : (tagLineOut o [] s1) = ⟨[], .ok ({ o with message := m }, s2)⟩ := by
            show (Prints.lift (Stream.readAll s1) >>= _) = _
            rw [hra]; rfl
          rw [this, Prints.bind_ok_out _ rfl]
          have h2 : s2.rest = [] := by
            unfold Stream.readAll at hra
            split at hra
            · simp only [Res.ok.injEq, Prod.mk.injEq] at hra
              rw [← hra.2]
            · cases hra
          exact tagLoopOut_end _ _ _ h2
      · by_cases hb : BadTagLine l
        · obtain ⟨ls, m, _, hh, _, _⟩ := ih o s1 hN1 (by omega)
          refine ⟨l :: ls, m, [], .line _ _ _ _ _ hline hl (by rw [← hlt.bufsz]; exact hh),
            ⟨l :: ls, rfl, by simp, ?_⟩, ?_⟩
          · intro x hx
            simp only [List.head?_cons, Option.some.injEq] at hx
            subst hx; exact hb
          · have hne : ∀ p, (tagLineOut o l s1).res ≠ .ok p := by
              rintro ⟨o', s'⟩ h
              rw [tagLineOut_res] at h
              have he := ((tagLine_step _ _ _ _ _ hl).1 h).2
              exact (badTagLine_iff o l s1 hl).2 ⟨o', he ▸ h⟩ hb
            have hout : (tagLineOut o l s1).out = [] := by
              rw [tagLineOut_out _ _ _ hl]
              unfold unhandledText
              rw [List.filter_cons_of_neg]
              · rfl
              · simp only [List.all_eq_true, Bool.not_eq_true', Classical.not_forall]
                rcases hb with ⟨h, _⟩ | ⟨h, _⟩
                · exact ⟨b!"object ", by decide, by simpa using h⟩
                · exact ⟨b!"tagger ", by decide, by simpa using h⟩
            show _ = []
            unfold Prints.bind
            cases hres : (tagLineOut o l s1).res with
            | ok p => exact absurd hres (hne p)
            | err e => exact hout
            | panic => exact hout
        · obtain ⟨o', h'⟩ := (badTagLine_iff o l s1 hl).1 hb
          obtain ⟨ls, m, pre, hh, ⟨post, rfl, hp, hq⟩, ho⟩ := ih o' s1 hN1 (by omega)
          refine ⟨l :: (pre ++ post), m, l :: pre,
            .line _ _ _ _ _ hline hl (by rw [← hlt.bufsz]; exact hh), ⟨post, rfl, ?_, hq⟩, ?_⟩
          · intro x hx
            simp only [List.mem_cons] at hx
            rcases hx with rfl | hx
            · exact hb
            · exact hp x hx
          · rw [Prints.bind_ok_out (a := (o', s1)) _ (by rw [tagLineOut_res]; exact h'),
              tagLineOut_out _ _ _ hl, unhandledText_cons l pre]
            simp only [ho]

section
variable {σ τ : Type} [Reader σ] [Reader τ] {R : σ → τ → Prop} (S : ReaderSim R)

include S

theorem sim_tagLineOut (o : Tag) (l : Bytes) (s : σ) (t : τ) (h : R s t) :
    (tagLineOut o l s).out = (tagLineOut o l t).out ∧
    RelRes R (tagLineOut o l s).res (tagLineOut o l t).res := by
  refine ⟨?_, by rw [tagLineOut_res, tagLineOut_res]; exact sim_tagLine S o l s t h⟩
  have h3 : ∀ {ρ : Type} (r : ρ) (w : Res Bytes),
      (Prints.lift w >>= fun h => Prints.lift (hexDecode h) >>= fun sha => Prints.lift (shaToCid sha) >>= fun c =>
        (pure ({ o with object := .cid c }, r) : Prints (Tag × ρ))).out = [] := fun r w =>
    Prints.bind_lift _ _ fun _ => Prints.bind_lift _ _ fun _ => Prints.bind_lift _ _ fun _ => rfl
  unfold tagLineOut
  split
  · rw [h3, h3]
  split
  · exact (Prints.bind_lift _ _ fun _ => rfl).trans (Prints.bind_lift _ _ fun _ => rfl).symm
  split
  · exact (Prints.bind_lift _ _ fun _ => rfl).trans (Prints.bind_lift _ _ fun _ => rfl).symm
  split
  · exact (Prints.bind_lift _ _ fun _ => rfl).trans (Prints.bind_lift _ _ fun _ => rfl).symm
  split
  · exact (Prints.bind_lift _ _ fun _ => rfl).trans (Prints.bind_lift _ _ fun _ => rfl).symm
  · rfl

theorem sim_tagLoopOut (f : Nat) (o : Tag) (s : σ) (t : τ) (h : R s t) :
    (tagLoopOut f o s).out = (tagLoopOut f o t).out := by
  induction f generalizing o s t with
  | zero => rfl
  | succ f ih =>
    unfold tagLoopOut
    rcases (S.readLine s t h).cases with ⟨x, s', t', h1, h2, h3⟩ | ⟨e, h1, h2⟩ | ⟨h1, h2⟩
    · rw [h1, h2]
      simp only
      obtain ⟨ho, hr⟩ := sim_tagLineOut S o x s' t' h3
      rcases hr.cases with ⟨y, s2, t2, h4, h5, h6⟩ | ⟨e, h4, h5⟩ | ⟨h4, h5⟩
      · rw [Prints.bind_ok_out _ h4, Prints.bind_ok_out _ h5, ho]
        exact congrArg _ (ih _ _ _ h6)
      · unfold Prints.bind; rw [h4, h5]; exact ho
      · unfold Prints.bind; rw [h4, h5]; exact ho
    · rw [h1, h2]; cases e <;> rfl
    · rw [h1, h2]

theorem sim_parseObjectOut (s : σ) (t : τ) (h : R s t) : (parseObjectOut s).out = (parseObjectOut t).out := by
  have h0 : ∀ {α γ : Type} (x : Prints α) (g : α → Res γ), (x.bind fun a => .lift (g a)).out = x.out := by
    intro α γ x g
    unfold Prints.bind
    cases x.res <;> simp [Prints.lift]
  unfold parseObjectOut
  rcases (sim_readType S s t h).cases with ⟨x, s', t', h1, h2, h3⟩ | ⟨e, h1, h2⟩ | ⟨h1, h2⟩
  · rw [h1, h2, Prints.bind_ok_out _ rfl, Prints.bind_ok_out _ rfl]
    congr 1
    simp only
    split
    · rw [h0, h0]; rfl
    split
    · rw [h0, h0]; rfl
    split
    · rw [h0, h0]; rfl
    split
    · rw [h0, h0]
      unfold decodeTagOut
      rcases (S.readString NUL s' t' h3).cases with ⟨y, s2, t2, h4, h5, h6⟩ | ⟨e, h4, h5⟩ | ⟨h4, h5⟩
      · rw [h4, h5, Prints.bind_ok_out _ rfl, Prints.bind_ok_out _ rfl]
        congr 1
        simp only
        rw [S.left _ _ h6]
        exact sim_tagLoopOut S _ _ _ _ h6
      · rw [h4, h5]; rfl
      · rw [h4, h5]; rfl
    · rfl
  · rw [h1, h2]; rfl
  · rw [h1, h2]; rfl

end

end Verif

namespace Verif.Props

open Verif Spec

theorem pairs_mem {α β : Type} {R : α → β → Prop} : ∀ {xs : List α} {ys : List β}, Pairs R xs ys →
    ∀ x ∈ xs, ∃ y, R x y
  | [], _, _, _, h => by cases h
  | _ :: _, [], h, _, _ => h.elim
  | _ :: _, b :: _, ⟨h, hr⟩, x, hx => by
    rcases List.mem_cons.1 hx with rfl | hx
    · exact ⟨b, h⟩
    · exact pairs_mem hr x hx

/-- What `ParseObject` prints. If the stream is `tag SP anything NUL` and a body,
one line for each of the body's header lines without a known keyword, up to the
first invalid line or the blank line, in order; whether or not reading ends in an
error. On every other stream, in particular for blobs, trees and commits,
nothing. The result is that of the model without output. -/
theorem stdout_exact (s : Stream) (hN : 2 ≤ s.bufsz) :
    (parseObjectOut s).res = parseObject s ∧
    (∀ d body, NUL ∉ d → s.rest = b!"tag " ++ d ++ NUL :: body →
      ∃ ls m pre, Head s.bufsz body ls m ∧ BeforeBad ls pre ∧
        (parseObjectOut s).out = unhandledText pre) ∧
    ((¬ ∃ d body, NUL ∉ d ∧ s.rest = b!"tag " ++ d ++ NUL :: body) → (parseObjectOut s).out = []) := by
  have h0 : ∀ {α γ : Type} (x : Prints α) (g : α → Res γ), (x.bind fun a => .lift (g a)).out = x.out := by
    intro α γ x g
    unfold Prints.bind
    cases x.res <;> simp [Prints.lift]
  refine ⟨parseObjectOut_res s, ?_, ?_⟩
  · intro d body hd hs
    obtain ⟨r, e, N⟩ := s
    simp only at hs hN
    subst hs
    have hty : readType (σ := Stream) ⟨b!"tag " ++ d ++ NUL :: body, e, N⟩
        = .ok (b!"tag", ⟨d ++ NUL :: body, e, N⟩) := by
      have : b!"tag " ++ d ++ NUL :: body = b!"tag" ++ SP :: (d ++ NUL :: body) := by simp
      rw [this]
      unfold readType
      rw [reader_readString, Stream.readString_delim _ _ _ _ _ (by decide)]
      rfl
    obtain ⟨ls, m, pre, h1, h2, h3⟩ :=
      tagLoopOut_out (body.length + 1) Tag.zero ⟨body, e, N⟩ hN (Nat.lt_succ_self _)
    refine ⟨ls, m, pre, h1, h2, ?_⟩
    unfold parseObjectOut
    rw [hty, Prints.bind_ok_out _ rfl]
    show [] ++ ((decodeTagOut (σ := Stream) ⟨d ++ NUL :: body, e, N⟩).bind fun t => .lift (.ok (Obj.tag t))).out = _
    rw [h0]
    unfold decodeTagOut
    rw [reader_readString, Stream.readString_delim _ _ _ _ _ hd, Prints.bind_ok_out _ rfl]
    exact h3
  · intro hno
    unfold parseObjectOut
    cases hty : readType s with
    | err e => rfl
    | panic => rfl
    | ok p =>
      obtain ⟨w, s1⟩ := p
      rw [Prints.bind_ok_out _ rfl]
      show [] ++ _ = []
      simp only [List.nil_append]
      split
      · rw [h0]; rfl
      split
      · rw [h0]; rfl
      split
      · rw [h0]; rfl
      split
      · rename_i hw
        subst hw
        rw [h0]
        unfold decodeTagOut
        rw [reader_readString]
        cases hr : Stream.readString NUL s1 with
        | err e => rfl
        | panic => rfl
        | ok q =>
          exfalso
          obtain ⟨x, s2⟩ := q
          obtain ⟨d, _, hd, hrest, _, _⟩ := Stream.readString_ok _ _ _ _ hr
          unfold readType at hty
          rw [reader_readString] at hty
          cases hsp : Stream.readString SP s with
          | err e => rw [hsp] at hty; cases e <;> cases hty
          | panic => rw [hsp] at hty; cases hty
          | ok q =>
            obtain ⟨y, s3⟩ := q
            rw [hsp] at hty
            obtain ⟨v, rfl, _, hrest', _, _⟩ := Stream.readString_ok _ _ _ _ hsp
            obtain ⟨v', hv, hty⟩ := Res.bind_eq_ok.1 hty
            simp only [Res.ok.injEq, Prod.mk.injEq] at hty
            obtain ⟨rfl, rfl⟩ := hty
            have : v = b!"tag" := by
              have : chop (v ++ [SP]) = .ok v := chop_concat v SP
              rw [this] at hv
              injection hv
            subst this
            exact hno ⟨d, s2.rest, hd, by rw [hrest', hrest]; simp⟩
      · rfl

/-- Through a buffered reader, from any `io.Reader`, and for `Decode` with any
assembler that prints nothing, the output is the same. -/
theorem stdout_delivery {ρ β : Type} [Source ρ] {inv : ρ → Prop} {pending : ρ → Bytes} {fin : Err}
    {eager : Prop} (D : Delivers ρ inv pending fin eager) (r : ρ) (hr : inv r) (size : Nat) (hs : 0 < size)
    (room : Nat → Nat) (he : eager → fin = .eof ∧ (pending r).getLast? ≠ some CR) (na : Sink β) :
    (parseObjectOut (newReader r size room)).out
      = (parseObjectOut (σ := Stream) ⟨pending r, fin, size⟩).out ∧
    (decodeOut na (newReader r size room)).out
      = (parseObjectOut (σ := Stream) ⟨pending r, fin, size⟩).out ∧
    (decodeOut na (newReader r size room)).res = decode na (newReader r size room) := by
  have h := sim_parseObjectOut (bufio_sim D) _ _ (newReader_match r hr size hs room he)
  exact ⟨h, by rw [decodeOut_out]; exact h, decodeOut_res na _⟩

/-- A tag that decodes prints exactly its unknown header lines; nothing is printed
exactly if there are none. -/
theorem stdout_accepted (s : Stream) (hN : 2 ≤ s.bufsz) (t : Tag) (h : parseObject s = .ok (.tag t)) :
    ∃ d body ls m, s.rest = b!"tag " ++ d ++ NUL :: body ∧ Head s.bufsz body ls m ∧
      (parseObjectOut s).out = unhandledText ls ∧
      ((parseObjectOut s).out = [] ↔ ∀ l ∈ ls, ∃ w ∈ tagWords, w <+: l) := by
  obtain ⟨_, d, body, ls, m, hd, hs, hh, hm⟩ := (tag_accepts s hN t).1 h
  obtain ⟨ls', m', pre, hh', ⟨post, hls, hp, hq⟩, ho⟩ := (stdout_exact s hN).2.1 d body hd hs
  obtain ⟨rfl, rfl⟩ := head_unique hN hh hh'
  have hpost : post = [] := by
    cases post with
    | nil => rfl
    | cons x xs =>
      exfalso
      have hx : x ∈ ls := by rw [hls]; simp
      rcases hq x rfl with ⟨h1, h2⟩ | ⟨h1, h2⟩
      · obtain ⟨ys, hp, _⟩ := hm.object
        have hmem : x.drop 7 ∈ behind b!"object " ls := by
          unfold behind linesWith
          exact List.mem_map.2 ⟨x, List.mem_filter.2 ⟨hx, by simpa using h1⟩, rfl⟩
        exact h2 (pairs_mem hp _ hmem)
      · obtain ⟨ys, hp, _⟩ := hm.tagger
        have hmem : x ∈ linesWith b!"tagger " ls := List.mem_filter.2 ⟨hx, by simpa using h1⟩
        exact h2 (pairs_mem hp _ hmem)
  subst hpost
  rw [List.append_nil] at hls
  subst hls
  refine ⟨d, body, ls, m, hs, hh, ho, ?_⟩
  rw [ho]
  unfold unhandledText
  constructor
  · intro he l hl
    have hfil : l ∉ ls.filter fun l => tagWords.all fun w => !w.isPrefixOf l := by
      intro hmem
      have := (List.flatMap_eq_nil_iff.1 he) l hmem
      simp at this
    have hall := fun h => hfil (List.mem_filter.2 ⟨hl, h⟩)
    refine Classical.byContradiction fun hno => hall (List.all_eq_true.2 fun w hw => ?_)
    rw [Bool.not_eq_true', Bool.eq_false_iff]
    exact fun h => hno ⟨w, hw, List.isPrefixOf_iff_prefix.1 h⟩
  · intro hall
    rw [List.filter_eq_nil_iff.2]
    · rfl
    · intro l hl h
      obtain ⟨w, hw, hpre⟩ := hall l hl
      have := List.all_eq_true.1 h w hw
      simp only [Bool.not_eq_true'] at this
      rw [List.isPrefixOf_iff_prefix.2 hpre] at this
      cases this

/-- A tag with an unknown line, and one that fails after it. -/
example :
    (parseObjectOut (σ := Stream) ⟨b!"tag 0\x00type commit\nx y\ntag v\n\nx z\n", .eof, 4096⟩).out
      = b!"unhandled line:  x y\n" ∧
    (parseObjectOut (σ := Stream) ⟨b!"tag 0\x00x y\nobject zz\nx z\n", .eof, 4096⟩).out
      = b!"unhandled line:  x y\n" ∧
    (parseObjectOut (σ := Stream) ⟨b!"commit 0\x00x y\n", .eof, 4096⟩).out = [] := by
  refine ⟨?_, ?_, ?_⟩ <;> decide +kernel

end Verif.Props
