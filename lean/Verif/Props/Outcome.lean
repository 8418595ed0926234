import Verif.Spec.Outcome
import Verif.Props.Dispatch
import Verif.Props.Taken
import Verif.Props.Feed

/-!
# C115 When Encode writes, fails or panics
-/

namespace Verif.Props

open Verif Spec

theorem bindp_iff {α β : Type} {x : Res α} {f : α → Res β} : (x >>= f) = .panic ↔ x = .panic ∨ ∃ a, x = .ok a ∧ f a = .panic := by
  cases x <;> simp [Res.bind_ok, Res.bind_err, Res.bind_panic]

theorem binde_iff {α β : Type} {x : Res α} {f : α → Res β} {e : Err} :
    (x >>= f) = .err e ↔ x = .err e ∨ ∃ a, x = .ok a ∧ f a = .err e := by
  cases x <;> simp [Res.bind_ok, Res.bind_err, Res.bind_panic]

theorem linkSha_no_err {l : Link} {e : Err} : linkSha l ≠ .err e := by
  cases l with
  | cid c =>
    simp only [linkSha, cidToSha]
    split <;> exact fun h => by cases h
  | _ => exact fun h => by cases h

theorem cidToSha_panic {c : Cid} : cidToSha c = .panic ↔ c.hash.length < 20 := by
  unfold cidToSha
  split
  · simp_all
  · simp_all

theorem cidToSha_no_err {c : Cid} {e : Err} : cidToSha c ≠ .err e := by
  unfold cidToSha
  split <;> exact fun h => by cases h

theorem encTreeEntry_panic {name : Bytes} {x : TreeEntry} :
    encTreeEntry name x = .panic ↔ ∀ c, x.hash = .cid c → c.hash.length < 20 := by
  unfold encTreeEntry
  split
  · rename_i c hc
    rw [bindp_iff, cidToSha_panic]
    simp [hc]
  · rename_i hc
    simp only [true_iff]
    intro c h
    exact absurd h (hc c)

theorem encTreeEntry_no_err {name : Bytes} {x : TreeEntry} {e : Err} : encTreeEntry name x ≠ .err e := by
  unfold encTreeEntry
  split
  · rw [ne_eq, binde_iff]
    rintro (h | ⟨_, _, h⟩)
    · exact cidToSha_no_err h
    · cases h
  · exact fun h => by cases h

theorem encTreeEntries_panic {rows : List (Bytes × TreeEntry)} :
    encTreeEntries rows = .panic ↔ ∃ r ∈ rows, ∀ c, r.2.hash = .cid c → c.hash.length < 20 := by
  induction rows with
  | nil => simp [encTreeEntries]
  | cons r rows ih =>
    obtain ⟨name, x⟩ := r
    simp only [encTreeEntries, bindp_iff, ih, encTreeEntry_panic, List.mem_cons]
    constructor
    · rintro (h | ⟨_, _, ⟨r, h1, h2⟩ | ⟨_, _, h⟩⟩)
      · exact ⟨_, .inl rfl, h⟩
      · exact ⟨r, .inr h1, h2⟩
      · cases h
    · rintro ⟨r, rfl | h1, h2⟩
      · exact .inl h2
      · cases hx : encTreeEntry name x with
        | ok b => exact .inr ⟨b, rfl, .inl ⟨r, h1, h2⟩⟩
        | err e => exact absurd hx encTreeEntry_no_err
        | panic => exact .inl (encTreeEntry_panic.1 hx)

theorem encTreeEntries_no_err {rows : List (Bytes × TreeEntry)} {e : Err} : encTreeEntries rows ≠ .err e := by
  induction rows with
  | nil => exact fun h => by cases h
  | cons r rows ih =>
    obtain ⟨name, x⟩ := r
    simp only [encTreeEntries, ne_eq, binde_iff]
    rintro (h | ⟨_, _, h | ⟨_, _, h⟩⟩)
    · exact encTreeEntry_no_err h
    · exact ih h
    · cases h

theorem encParents_no_err {ls : List Link} {e : Err} : encParents ls ≠ .err e := by
  induction ls with
  | nil => exact fun h => by cases h
  | cons l r ih =>
    simp only [encParents, ne_eq, binde_iff]
    rintro (h | ⟨_, _, h | ⟨_, _, h⟩⟩)
    · exact linkSha_no_err h
    · exact ih h
    · cases h

theorem encMergeTags_no_err {ts : List Tag} {e : Err} : encMergeTags ts ≠ .err e := by
  induction ts with
  | nil => exact fun h => by cases h
  | cons t r ih =>
    simp only [encMergeTags, encMergeTag, ne_eq, binde_iff]
    rintro (h | ⟨_, _, h | ⟨_, _, h⟩⟩)
    · rcases h with h | ⟨_, _, h⟩
      · exact linkSha_no_err h
      · cases h
    · exact ih h
    · cases h

theorem encParents_panic_iff {ls : List Link} : encParents ls = .panic ↔ ∃ l ∈ ls, TooShort l := by
  refine ⟨encParents_panic, ?_⟩
  induction ls with
  | nil => simp
  | cons l r ih =>
    rintro ⟨x, hx, hs⟩
    simp only [encParents, bindp_iff]
    rcases List.mem_cons.1 hx with rfl | hx
    · exact .inl (linkSha_panic.2 hs)
    · cases hl : linkSha l with
      | ok b => exact .inr ⟨b, rfl, .inl (ih ⟨x, hx, hs⟩)⟩
      | err e => exact absurd hl linkSha_no_err
      | panic => exact .inl rfl

theorem encMergeTags_panic_iff {ts : List Tag} : encMergeTags ts = .panic ↔ ∃ t ∈ ts, TooShort t.object := by
  refine ⟨encMergeTags_panic, ?_⟩
  induction ts with
  | nil => simp
  | cons t r ih =>
    rintro ⟨x, hx, hs⟩
    simp only [encMergeTags, encMergeTag, bindp_iff]
    cases hl : linkSha t.object with
    | err e => exact absurd hl linkSha_no_err
    | panic => exact .inl (.inl rfl)
    | ok b =>
      rcases List.mem_cons.1 hx with rfl | hx
      · rw [linkSha_panic.2 hs] at hl
        cases hl
      · exact .inr ⟨_, rfl, .inl (ih ⟨x, hx, hs⟩)⟩

theorem person_no_err {p : Option PersonInfo} {e : Err} : personOrPanic p ≠ .err e := by
  cases p <;> exact fun h => by cases h

theorem commitBody_no_err {c : Commit} {e : Err} : commitBody c ≠ .err e := by
  unfold commitBody
  simp only [ne_eq, binde_iff]
  rintro (h | ⟨_, _, h | ⟨_, _, h | ⟨_, _, h | ⟨_, _, h | ⟨_, _, h⟩⟩⟩⟩⟩)
  · exact linkSha_no_err h
  · exact encParents_no_err h
  · exact person_no_err h
  · exact person_no_err h
  · exact encMergeTags_no_err h
  · cases h

theorem commitBody_panic_iff {c : Commit} : commitBody c = .panic ↔ Unwritable c := by
  refine ⟨commitBody_panic, fun h => ?_⟩
  cases hb : commitBody c with
  | panic => rfl
  | err e => exact absurd hb commitBody_no_err
  | ok b =>
    exfalso
    unfold commitBody at hb
    obtain ⟨x1, h1, hb⟩ := Res.bind_eq_ok.1 hb
    obtain ⟨x2, h2, hb⟩ := Res.bind_eq_ok.1 hb
    obtain ⟨x3, h3, hb⟩ := Res.bind_eq_ok.1 hb
    obtain ⟨x4, h4, hb⟩ := Res.bind_eq_ok.1 hb
    obtain ⟨x5, h5, hb⟩ := Res.bind_eq_ok.1 hb
    rcases h with h | h | h | h | h
    · rw [h] at h3; cases h3
    · rw [h] at h4; cases h4
    · rw [linkSha_panic.2 h] at h1; cases h1
    · rw [encParents_panic_iff.2 h] at h2; cases h2
    · rw [encMergeTags_panic_iff.2 h] at h5; cases h5

theorem encCommit_body (c : Commit) : encCommit c = (commitBody c >>= fun b => .ok (withHeader b!"commit" b)) := by
  unfold encCommit commitBody
  cases linkSha c.tree <;> try rfl
  cases encParents c.parents <;> try rfl
  cases personOrPanic c.author <;> try rfl
  cases personOrPanic c.committer <;> try rfl
  cases encMergeTags c.mergetag <;> rfl

/-- A value of the package in its typed view is never an error: it is written, or
Encode panics. -/
theorem value_outcome (o : Obj) : (∀ e, encodeBytes (.own (objNode o)) ≠ .err e) ∧
    (encodeBytes (.own (objNode o)) = .panic ↔ ObjUnwritable o) := by
  rw [encode_typed]
  cases o with
  | blob b => exact ⟨fun e h => (by cases h), ⟨fun h => (by cases h), False.elim⟩⟩
  | tree t =>
    constructor
    · intro e h
      rcases binde_iff.1 (show (encTreeEntries t.t >>= fun b => Res.ok (withHeader b!"tree" b)) = .err e from h) with h | ⟨_, _, h⟩
      · exact encTreeEntries_no_err h
      · cases h
    · refine (bindp_iff (x := encTreeEntries t.t) (f := fun b => Res.ok (withHeader b!"tree" b))).trans ?_
      simp [encTreeEntries_panic, ObjUnwritable, BadRows]
  | commit c =>
    show (∀ e, encCommit c ≠ .err e) ∧ (encCommit c = .panic ↔ _)
    rw [encCommit_body]
    simp only [ne_eq, binde_iff, bindp_iff, commitBody_no_err, commitBody_panic_iff]
    simp [ObjUnwritable]
  | tag t =>
    show (∀ e, encTag t ≠ .err e) ∧ (encTag t = .panic ↔ _)
    unfold encTag
    simp only [ne_eq, binde_iff, bindp_iff, linkSha_no_err, linkSha_panic]
    simp [ObjUnwritable, ShortLink, TooShort]

theorem entryFault_none {es : List (Bytes × Node)} {k : Bytes} {kind : Kind} :
    entryFault es k kind = none ↔ ∃ v, firstAt es k = some v ∧ v.kind = kind := by
  unfold entryFault
  cases firstAt es k with
  | none => simp
  | some v => by_cases h : v.kind = kind <;> simp [h]

theorem asString_kind {n : Node} : (∃ b, n.asString = .ok b) ↔ n.kind = .string := by
  cases n with
  | own v => cases v <;> simp [Node.asString, Node.kind, Own.kind]
  | repr v => cases v <;> simp [Node.asString, Node.kind, Own.kind]
  | _ => simp [Node.asString, Node.kind]

theorem asLink_kind {n : Node} : (∃ b, n.asLink = .ok b) ↔ n.kind = .link := by
  cases n with
  | own v => cases v <;> simp [Node.asLink, Node.kind, Own.kind]
  | repr v => cases v <;> simp [Node.asLink, Node.kind, Own.kind]
  | _ => simp [Node.asLink, Node.kind]

theorem asString_err {n : Node} {e : Err} (h : n.asString = .err e) : e = .wrongKind := by
  unfold Node.asString at h
  split at h <;> cases h
  rfl

theorem asLink_err {n : Node} {e : Err} (h : n.asLink = .err e) : e = .wrongKind := by
  unfold Node.asLink at h
  split at h <;> cases h
  rfl

theorem lookup_map (es : List (Bytes × Node)) (k : Bytes) :
    (Node.map es).lookup k = match firstAt es k with | some v => .ok v | none => .err .notExists := by
  cases h : firstAt es k with
  | some v => exact (lookup_valueAt es k v).2 h
  | none =>
    have hn : entryGet es k = none := by
      cases hg : entryGet es k with
      | none => rfl
      | some v =>
        have : (Node.map es).lookup k = .ok v := by simp only [Node.lookup, hg]
        rw [lookup_valueAt] at this
        rw [show valueAt es k = firstAt es k from rfl, h] at this
        cases this
    simp only [Node.lookup, hn]

/-- A string entry, as `encodeTag` reads it. -/
theorem text_entry (es : List (Bytes × Node)) (k : Bytes) :
    ((Node.map es).lookup k >>= Node.asString) = match entryFault es k .string with
      | some e => .err e
      | none => ((Node.map es).lookup k >>= Node.asString) := by
  cases hf : entryFault es k .string with
  | none => rfl
  | some e =>
    unfold entryFault at hf
    rw [lookup_map]
    cases h : firstAt es k with
    | none =>
      rw [h] at hf
      cases hf
      rfl
    | some v =>
      rw [h] at hf
      dsimp only at hf ⊢
      split at hf
      · cases hf
      · rename_i hk
        cases hf
        rw [Res.bind_ok]
        cases hs : v.asString with
        | ok b => exact absurd (asString_kind.1 ⟨b, hs⟩) hk
        | err e => rw [asString_err hs]
        | panic => exact absurd hs (asString_no_panic v)

theorem link_entry (es : List (Bytes × Node)) (k : Bytes) :
    ((Node.map es).lookup k >>= Node.asLink) = match entryFault es k .link with
      | some e => .err e
      | none => ((Node.map es).lookup k >>= Node.asLink) := by
  cases hf : entryFault es k .link with
  | none => rfl
  | some e =>
    unfold entryFault at hf
    rw [lookup_map]
    cases h : firstAt es k with
    | none =>
      rw [h] at hf
      cases hf
      rfl
    | some v =>
      rw [h] at hf
      dsimp only at hf ⊢
      split at hf
      · cases hf
      · rename_i hk
        cases hf
        rw [Res.bind_ok]
        cases hs : v.asLink with
        | ok b => exact absurd (asLink_kind.1 ⟨b, hs⟩) hk
        | err e => rw [asLink_err hs]
        | panic => exact absurd hs (asLink_no_panic v)

theorem res_assoc {α β γ : Type} (x : Res α) (f : α → Res β) (g : β → Res γ) :
    ((x >>= f) >>= g) = (x >>= fun a => f a >>= g) := by cases x <;> rfl

theorem encodeTag_steps (es : List (Bytes × Node)) : encodeTag (.map es) =
    (((Node.map es).lookup b!"object" >>= Node.asLink) >>= fun l =>
      ((Node.map es).lookup b!"type" >>= Node.asString) >>= fun ty =>
      ((Node.map es).lookup b!"tag" >>= Node.asString) >>= fun tg =>
      ((Node.map es).lookup b!"message" >>= Node.asString) >>= fun me =>
      linkSha l >>= fun h => encodeTagger ((Node.map es).lookup b!"tagger") >>= fun tl =>
      .ok (.framed b!"tag" (b!"object " ++ hexEncode h ++ [LF] ++ b!"type " ++ ty ++ [LF] ++ b!"tag " ++ tg ++ [LF] ++ tl
        ++ (if me ≠ [] then LF :: me else [])))) := by
  simp only [res_assoc]
  rfl

theorem text_ok {es : List (Bytes × Node)} {k : Bytes} (h : entryFault es k .string = none) :
    ∃ b, ((Node.map es).lookup k >>= Node.asString) = .ok b := by
  obtain ⟨v, h1, h2⟩ := entryFault_none.1 h
  obtain ⟨b, hb⟩ := asString_kind.2 h2
  exact ⟨b, by rw [lookup_map, h1]; exact hb⟩

theorem text_bad {es : List (Bytes × Node)} {k : Bytes} {e : Err} (h : entryFault es k .string = some e) :
    ((Node.map es).lookup k >>= Node.asString) = .err e := by
  rw [text_entry, h]

/-- What becomes of a map that is taken for a tag. -/
theorem encodeTag_outcome (es : List (Bytes × Node)) :
    (∀ e, tagFault es = some e → encodeTag (.map es) = .err e) ∧
    (tagFault es = none → ShortObject es → encodeTag (.map es) = .panic) ∧
    (tagFault es = none → ¬ ShortObject es → ∃ f : Bytes → Out, encodeTag (.map es) =
      (encodeTagger ((Node.map es).lookup b!"tagger") >>= fun tl => .ok (f tl))) := by
  rw [encodeTag_steps]
  unfold tagFault
  cases h1 : entryFault es b!"object" .link with
  | some e =>
    rw [link_entry, h1]
    simp [Res.bind_err]
  | none =>
    obtain ⟨o, ho1, ho2⟩ := entryFault_none.1 h1
    obtain ⟨l, hl⟩ := asLink_kind.2 ho2
    have hl' : ((Node.map es).lookup b!"object" >>= Node.asLink) = .ok l := by rw [lookup_map, ho1]; exact hl
    rw [hl', Res.bind_ok, Option.none_or]
    cases h2 : entryFault es b!"type" .string with
    | some e =>
      rw [text_bad h2]
      simp [Res.bind_err]
    | none =>
      obtain ⟨ty, hty⟩ := text_ok h2
      rw [hty, Res.bind_ok, Option.none_or]
      cases h3 : entryFault es b!"tag" .string with
      | some e =>
        rw [text_bad h3]
        simp [Res.bind_err]
      | none =>
        obtain ⟨tg, htg⟩ := text_ok h3
        rw [htg, Res.bind_ok, Option.none_or]
        cases h4 : entryFault es b!"message" .string with
        | some e =>
          rw [text_bad h4]
          simp [Res.bind_err]
        | none =>
          obtain ⟨me, hme⟩ := text_ok h4
          rw [hme, Res.bind_ok]
          have hs : ShortObject es ↔ TooShort l := by
            constructor
            · rintro ⟨o', l', a, b, c⟩
              rw [ho1] at a
              cases a
              rw [hl] at b
              cases b
              exact c
            · exact fun c => ⟨o, l, ho1, hl, c⟩
          refine ⟨fun e h => (by cases h), fun _ h => ?_, fun _ h => ?_⟩
          · rw [linkSha_panic.2 (hs.1 h), Res.bind_panic]
          · cases hx : linkSha l with
            | ok b =>
              rw [Res.bind_ok]
              exact ⟨_, rfl⟩
            | err e => exact absurd hx linkSha_no_err
            | panic => exact absurd (hs.2 (linkSha_panic.1 hx)) h

theorem map_first {k : Bytes} {v : Node} {r : List (Bytes × Node)} :
    encodeBytes (.map ((k, v) :: r)) =
      ((if k ∈ tagKeys then encodeTag (.map ((k, v) :: r)) else encodeCommit (.map ((k, v) :: r))) >>= fun o => .ok o.bytes) := by
  unfold encodeBytes
  rw [encode_dispatch (foreign_map _)]
  rfl

theorem person_err (v : Node) (e : Err) : buildPerson v = .err e ↔ ∃ d, Offers v d ∧ taken false .person d = .err e := by
  have key : ∀ {d}, Offers v d → (taken false .person d = .err e ↔ buildPerson v = .err e) := by
    intro d h
    rw [proto_shown (fun _ => 0) .person h]
    show ((buildPerson v >>= fun p => Res.ok (Own.person p)) >>= fun x => Res.ok (valOf x)) = .err e ↔ _
    cases buildPerson v <;> simp [Res.bind_ok, Res.bind_err, Res.bind_panic]
  constructor
  · intro h
    obtain ⟨d, hd⟩ := shows_total v
    exact ⟨d, hd, (key hd).2 h⟩
  · rintro ⟨d, hd, h⟩
    exact (key hd).1 h

/-- A map whose first key is one of a tag panics exactly if object, type, name and
message are there and the object's link is too short. -/
theorem tag_map_panics {k : Bytes} {v : Node} {r : List (Bytes × Node)} (hk : k ∈ tagKeys) :
    encodeBytes (.map ((k, v) :: r)) = .panic ↔ tagFault ((k, v) :: r) = none ∧ ShortObject ((k, v) :: r) := by
  rw [map_first, if_pos hk]
  generalize ((k, v) :: r) = es
  obtain ⟨h1, h2, h3⟩ := encodeTag_outcome es
  cases hf : tagFault es with
  | some e => simp [h1 e hf, Res.bind_err]
  | none =>
    by_cases hs : ShortObject es
    · simp [h2 hf hs, hs, Res.bind_panic]
    · obtain ⟨f, he⟩ := h3 hf hs
      rw [he]
      simp only [hs, and_false, iff_false]
      cases ht : encodeTagger ((Node.map es).lookup b!"tagger") with
      | ok b => simp [Res.bind_ok]
      | err e => simp [Res.bind_err]
      | panic =>
        exfalso
        rw [lookup_map] at ht
        cases hv : firstAt es b!"tagger" with
        | none => rw [hv] at ht; cases ht
        | some x =>
          rw [hv] at ht
          dsimp only [encodeTagger] at ht
          split at ht
          · cases ht
          · rcases bindp_iff.1 ht with ht | ⟨_, _, ht⟩
            · exact build_person_no_panic _ ht
            · cases ht

/-- It is an error exactly if one of the four is wrong, and then the first of these
errors, or else if there is a tagger that is no person, and then the error that
building it gives. -/
theorem tag_map_fails {k : Bytes} {v : Node} {r : List (Bytes × Node)} (hk : k ∈ tagKeys) (e : Err) :
    encodeBytes (.map ((k, v) :: r)) = .err e ↔ tagFault ((k, v) :: r) = some e ∨
      (tagFault ((k, v) :: r) = none ∧ ¬ ShortObject ((k, v) :: r) ∧
        ∃ x d, firstAt ((k, v) :: r) b!"tagger" = some x ∧ x.isNull = false ∧ Offers x d ∧ taken false .person d = .err e) := by
  rw [map_first, if_pos hk]
  generalize ((k, v) :: r) = es
  obtain ⟨h1, h2, h3⟩ := encodeTag_outcome es
  cases hf : tagFault es with
  | some e => simp [h1 e hf, Res.bind_err]
  | none =>
    by_cases hs : ShortObject es
    · simp [h2 hf hs, hs, Res.bind_panic]
    · obtain ⟨f, he⟩ := h3 hf hs
      rw [he, lookup_map]
      simp only [hs, not_false_eq_true, true_and, reduceCtorEq, false_or]
      cases hv : firstAt es b!"tagger" with
      | none => simp [encodeTagger, Res.bind_ok]
      | some x =>
        cases hn : x.isNull with
        | true => simp [encodeTagger, Res.bind_ok, hn]
        | false =>
          dsimp only [encodeTagger]
          rw [hn]
          have := person_err x e
          simp only [Option.some.injEq, exists_and_left]
          constructor
          · intro h
            refine ⟨x, rfl, hn, this.1 ?_⟩
            cases hb : buildPerson x with
            | ok p => rw [hb] at h; cases h
            | err e' => rw [hb] at h; cases h; rfl
            | panic => rw [hb] at h; cases h
          · rintro ⟨y, rfl, _, h⟩
            rw [this.2 h]
            rfl

/-- A map with another first key is taken for a commit. -/
theorem commit_map_outcome {k : Bytes} {v : Node} {r : List (Bytes × Node)} (hk : k ∉ tagKeys) {d : Handles.Nd}
    (hd : Offers (.map ((k, v) :: r)) d) :
    (∀ e, encodeBytes (.map ((k, v) :: r)) = .err e ↔ taken false .commit d = .err e) ∧
    (encodeBytes (.map ((k, v) :: r)) = .panic ↔
      taken false .commit d = .panic ∨ ∃ c, taken false .commit d = .ok (commitVal c) ∧ Unwritable c) ∧
    (∀ out, encodeBytes (.map ((k, v) :: r)) = .ok out ↔
      ∃ c, taken false .commit d = .ok (commitVal c) ∧ encodeBytes (.own (.commit c)) = .ok out) := by
  rw [map_first, if_neg hk]
  have ht : taken false .commit d = (buildCommit (.map ((k, v) :: r)) >>= fun c => .ok (commitVal c)) := by
    rw [proto_shown (fun _ => 0) .commit hd]
    show ((buildCommit _ >>= fun p => Res.ok (Own.commit p)) >>= fun x => Res.ok (valOf x)) = _
    cases buildCommit (.map ((k, v) :: r)) <;> rfl
  have hinj : ∀ {a b : Commit}, commitVal a = commitVal b → a = b := fun h => commitVal_inj h
  rw [ht]
  generalize (Node.map ((k, v) :: r)) = n
  unfold encodeCommit
  have hown : ∀ c, encodeBytes (.own (.commit c)) = (commitBody c >>= fun b => .ok (withHeader b!"commit" b)) := by
    intro c
    rw [show Node.own (.commit c) = .own (objNode (.commit c)) from rfl, encode_typed]
    exact encCommit_body c
  cases hb : buildCommit n with
  | err e' => simp [Res.bind_err]
  | panic => simp [Res.bind_panic]
  | ok c =>
    simp only [Res.bind_ok, Res.ok.injEq, reduceCtorEq, false_or, hown]
    have e1 : ((commitBody c >>= fun b => Res.ok (Out.framed b!"commit" b)) >>= fun o => Res.ok o.bytes) =
        (commitBody c >>= fun b => Res.ok (withHeader b!"commit" b)) := by cases commitBody c <;> rfl
    rw [e1]
    refine ⟨fun e => ?_, ?_, fun out => ?_⟩
    · simp only [iff_false]
      intro h
      rcases binde_iff.1 h with h | ⟨_, _, h⟩
      · exact commitBody_no_err h
      · cases h
    · rw [bindp_iff, commitBody_panic_iff]
      constructor
      · rintro (h | ⟨_, _, h⟩)
        · exact ⟨c, rfl, h⟩
        · cases h
      · rintro ⟨c', h1, h2⟩
        rw [hinj h1]
        exact .inl h2
    · constructor
      · exact fun h => ⟨c, rfl, h⟩
      · rintro ⟨c', h1, h2⟩
        rw [hinj h1]
        exact h2

/-- The other view. -/
theorem view_outcome (o : Obj) : (∀ e, encodeBytes (objNode o).representation ≠ .err e) ∧
    (encodeBytes (objNode o).representation = .panic ↔ (∃ c, o = .commit c) ∨ ObjUnwritable o) := by
  cases o with
  | commit c =>
    have : encodeBytes (objNode (.commit c)).representation = .panic := by
      show (encode (.repr (.commit c)) >>= _) = _
      rw [encode_representation_commit]
      rfl
    rw [this]
    exact ⟨nofun, by simp⟩
  | blob b =>
    obtain ⟨h1, h2⟩ := value_outcome (.blob b)
    rw [(encode_representation_iff (.blob b)).2 (fun c h => by cases h)]
    exact ⟨h1, by rw [h2]; simp⟩
  | tree b =>
    obtain ⟨h1, h2⟩ := value_outcome (.tree b)
    rw [(encode_representation_iff (.tree b)).2 (fun c h => by cases h)]
    exact ⟨h1, by rw [h2]; simp⟩
  | tag b =>
    obtain ⟨h1, h2⟩ := value_outcome (.tag b)
    rw [(encode_representation_iff (.tag b)).2 (fun c h => by cases h)]
    exact ⟨h1, by rw [h2]; simp⟩

/-- Every node that is no object of the package and no map with entries. -/
theorem other_outcome {n : Node} (hf : Foreign n) (hm : ∀ e es, n ≠ .map (e :: es)) :
    (∀ out, encodeBytes n = .ok out ↔ n.asBytes = .ok out) ∧ (encodeBytes n = .panic ↔ n.kind = .list) ∧
    ∀ e, encodeBytes n = .err e ↔ (n = .map [] ∧ e = .iterOver) ∨ (n.kind = .map ∧ n ≠ .map [] ∧ e = .invalidKey) ∨
      (n.kind ≠ .map ∧ n.kind ≠ .list ∧ n.kind ≠ .bytes ∧ e = .badType) := by
  have own : ∀ v : Own, (∀ o, v ≠ objNode o) → ∀ n, (n = .own v ∨ n = .repr v) → encodeBytes n =
      (match v.kind with
      | .list => .panic
      | .map => .err .invalidKey
      | _ => .err .badType) := by
    rintro v hv n (rfl | rfl)
    · cases v with
      | blob b => exact absurd rfl (hv (.blob b))
      | tree t => exact absurd rfl (hv (.tree t))
      | tag t => exact absurd rfl (hv (.tag t))
      | commit c => exact absurd rfl (hv (.commit c))
      | _ => rfl
    · cases v with
      | blob b => exact absurd rfl (hv (.blob b))
      | tree t => exact absurd rfl (hv (.tree t))
      | tag t => exact absurd rfl (hv (.tag t))
      | commit c => exact absurd rfl (hv (.commit c))
      | _ => rfl
  have fin : ∀ v : Own, (∀ o, v ≠ objNode o) → ∀ n, (n = .own v ∨ n = .repr v) →
      (∀ out, encodeBytes n = .ok out ↔ n.asBytes = .ok out) ∧ (encodeBytes n = .panic ↔ n.kind = .list) ∧
      ∀ e, encodeBytes n = .err e ↔ (n = .map [] ∧ e = .iterOver) ∨ (n.kind = .map ∧ n ≠ .map [] ∧ e = .invalidKey) ∨
        (n.kind ≠ .map ∧ n.kind ≠ .list ∧ n.kind ≠ .bytes ∧ e = .badType) := by
    intro v hv n hn
    rw [own v hv n hn]
    have hb : ∀ b, v ≠ .blob b := fun b => hv (.blob b)
    rcases hn with rfl | rfl <;> cases v <;>
      first
      | exact absurd rfl (hb _)
      | simp [Own.kind, Node.kind, Node.asBytes, eq_comm]
  cases n with
  | own v => exact fin v (fun o h => (hf o).1 (by rw [h])) _ (.inl rfl)
  | repr v => exact fin v (fun o h => (hf o).2 (by rw [h])) _ (.inr rfl)
  | map es =>
    cases es with
    | cons e es => exact absurd rfl (hm e es)
    | nil =>
      rw [show encodeBytes (.map []) = .err .iterOver from rfl]
      simp [Node.kind, Node.asBytes, eq_comm]
  | list ns =>
    rw [show encodeBytes (.list ns) = .panic from rfl]
    simp [Node.kind, Node.asBytes]
  | bytes b =>
    rw [show encodeBytes (.bytes b) = .ok b from rfl]
    simp [Node.kind, Node.asBytes]
  | null => rw [show encodeBytes .null = .err .badType from rfl]; simp [Node.kind, Node.asBytes, eq_comm]
  | absent => rw [show encodeBytes .absent = .err .badType from rfl]; simp [Node.kind, Node.asBytes, eq_comm]
  | bool b => rw [show encodeBytes (.bool b) = .err .badType from rfl]; simp [Node.kind, Node.asBytes, eq_comm]
  | int b => rw [show encodeBytes (.int b) = .err .badType from rfl]; simp [Node.kind, Node.asBytes, eq_comm]
  | float b => rw [show encodeBytes (.float b) = .err .badType from rfl]; simp [Node.kind, Node.asBytes, eq_comm]
  | str b => rw [show encodeBytes (.str b) = .err .badType from rfl]; simp [Node.kind, Node.asBytes, eq_comm]
  | link b => rw [show encodeBytes (.link b) = .err .badType from rfl]; simp [Node.kind, Node.asBytes, eq_comm]

namespace OutcomeExample

def fullTag : List (Bytes × Node) :=
  [(b!"tag", .str b!"v1"), (b!"object", .link (gitLink (List.replicate 20 1))), (b!"type", .str b!"commit"), (b!"message", .str b!"m")]

/-- A tree whose one link is short. -/
example : encodeBytes (.own (.tree ⟨[(b!"a", ⟨b!"100644", .cid ⟨1, 0x55, [0, 1, 7]⟩⟩)], [(b!"a", ⟨b!"100644", .cid ⟨1, 0x55, [0, 1, 7]⟩⟩)]⟩)) = .panic :=
  (value_outcome (.tree _)).2.2 ⟨_, List.mem_singleton.2 rfl, by
    intro c h
    cases h
    decide⟩

/-- A map with one entry that commits do not have. -/
example : encodeBytes (.map [(b!"x", .null)]) = .err .invalidKey :=
  ((commit_map_outcome (by decide) (.plain (fun v t h => by cases h)
    (.map rfl rfl (.cons (.plain (fun v t h => by cases h) .null) .nil)))).1 _).2 rfl

/-- The tagger of this tag is a string. -/
example : encodeBytes (.map (fullTag ++ [(b!"tagger", .str b!"A <a>")])) = .err .wrongKind :=
  (tag_map_fails (by decide) _).2 (.inr ⟨rfl, by
    rintro ⟨o, l, h1, h2, c, h3, h4⟩
    cases h1
    cases h2
    cases h3
    exact absurd h4 (by decide), _, .text b!"A <a>", rfl, rfl, .plain (fun v t h => by cases h) (.text rfl rfl), rfl⟩)

/-- Type and message are missing; the type is looked up first. -/
example : encodeBytes (.map (fullTag.take 2)) = .err .notExists := (tag_map_fails (by decide) _).2 (.inl rfl)

example : encodeBytes (.map (fullTag.set 1 (b!"object", .link (.cid ⟨1, 0x55, [0, 1, 7]⟩)))) = .panic :=
  (tag_map_panics (by decide)).2 ⟨rfl, _, _, rfl, rfl, _, rfl, by decide⟩

example : encodeBytes (.own (.person ⟨b!"A", b!"a", b!"1", b!"+0000"⟩)) = .err .invalidKey :=
  ((other_outcome (fun o => by cases o <;> exact ⟨nofun, nofun⟩) (fun e es h => by cases h)).2.2 _).2
    (.inr (.inl ⟨rfl, fun h => (by cases h), rfl⟩))

end OutcomeExample

end Verif.Props
