import Verif.Proofs.RoundTrip
import Verif.Props.Person
import Verif.Props.View

/-!
# Encoding foreign nodes (C37)

`Encode` of a node that is not one of the package's four object types in either
view: what the dispatch picks, what the bytes are, and every way to panic.
-/

namespace Verif.Props

open Verif Spec

/-- Not a blob, tree, tag or commit of the package, in either view. -/
def Foreign (n : Node) : Prop :=
  ∀ o : Obj, n ≠ .own (objNode o) ∧ n ≠ .repr (objNode o)

/-- The first keys that `Encode` takes for a tag (/repo/marshal.go:36-42). -/
def tagKeys : List Bytes := [b!"object", b!"type", b!"tag", b!"tagger", b!"text"]

/-- `Encode` of a foreign node, by kind and first key. -/
theorem encode_dispatch {n : Node} (h : Foreign n) :
    encode n =
      match n.kind with
      | .bytes => encodeBlob n
      | .list => .panic
      | .map =>
        match n.mapIterator with
        | none => .panic
        | some [] => .err .iterOver
        | some ((k, _) :: _) => if k ∈ tagKeys then encodeTag n else encodeCommit n
      | _ => .err .badType := by
  have main : ∀ n : Node,
      (match n.kind with
      | .bytes => encodeBlob n
      | .list => encodeTree n
      | .map =>
        match n.mapIterator with
        | none => .panic
        | some [] => .err .iterOver
        | some ((k, _) :: _) =>
          if k = b!"object" ∨ k = b!"type" ∨ k = b!"tag" ∨ k = b!"tagger" ∨ k = b!"text" then
            encodeTag n
          else encodeCommit n
      | _ => .err .badType) =
      (match n.kind with
      | .bytes => encodeBlob n
      | .list => .panic
      | .map =>
        match n.mapIterator with
        | none => .panic
        | some [] => .err .iterOver
        | some ((k, _) :: _) => if k ∈ tagKeys then encodeTag n else encodeCommit n
      | _ => .err .badType) := by
    intro n
    have hl : n.kind = .list → encodeTree n = .panic := by
      intro hk
      unfold encodeTree
      cases hm : n.mapIterator with
      | none => rfl
      | some es =>
        have := Node.kind_of_mapIterator hm
        rw [hk] at this
        cases this
    cases hk : n.kind <;> try rfl
    · exact hl hk
    · simp only [tagKeys, List.mem_cons, List.not_mem_nil, or_false]
  rw [← main n]
  cases n with
  | own v =>
    cases v with
    | blob b => exact absurd rfl (h (.blob b)).1
    | tree b => exact absurd rfl (h (.tree b)).1
    | tag b => exact absurd rfl (h (.tag b)).1
    | commit b => exact absurd rfl (h (.commit b)).1
    | _ => rfl
  | repr v =>
    cases v with
    | blob b => exact absurd rfl (h (.blob b)).2
    | tree b => exact absurd rfl (h (.tree b)).2
    | tag b => exact absurd rfl (h (.tag b)).2
    | commit b => exact absurd rfl (h (.commit b)).2
    | _ => rfl
  | _ => rfl

theorem encodeTag_word {n : Node} {o : Out} (h : encodeTag n = .ok o) :
    ∃ body, o = .framed b!"tag" body := by
  unfold encodeTag at h
  obtain ⟨_, -, h⟩ := Res.bind_eq_ok.1 h
  obtain ⟨_, -, h⟩ := Res.bind_eq_ok.1 h
  obtain ⟨_, -, h⟩ := Res.bind_eq_ok.1 h
  obtain ⟨_, -, h⟩ := Res.bind_eq_ok.1 h
  obtain ⟨_, -, h⟩ := Res.bind_eq_ok.1 h
  obtain ⟨_, -, h⟩ := Res.bind_eq_ok.1 h
  obtain ⟨_, -, h⟩ := Res.bind_eq_ok.1 h
  obtain ⟨_, -, h⟩ := Res.bind_eq_ok.1 h
  obtain ⟨_, -, h⟩ := Res.bind_eq_ok.1 h
  obtain ⟨_, -, h⟩ := Res.bind_eq_ok.1 h
  cases h
  exact ⟨_, rfl⟩

theorem encodeCommit_ok {n : Node} {o : Out} (h : encodeCommit n = .ok o) :
    ∃ c, CommitNode n c ∧ encCommit c = .ok o.bytes ∧ ∃ body, o = .framed b!"commit" body := by
  unfold encodeCommit at h
  obtain ⟨c, h1, h⟩ := Res.bind_eq_ok.1 h
  refine ⟨c, build_commit_sound h1, ?_, ?_⟩
  · rw [← encode_commit_own]
    show (commitBody c >>= fun b => .ok (Out.framed b!"commit" b)) >>= _ = _
    rw [h]; rfl
  · obtain ⟨b, -, h⟩ := Res.bind_eq_ok.1 h
    cases h
    exact ⟨b, rfl⟩

/-- What a successful `Encode` of a foreign node wrote: the bytes of a bytes
node; a tag, if the first key says so; or the encoding of the commit that the
node denotes. Never a tree. -/
theorem encode_foreign {n : Node} (hf : Foreign n) {o : Out} (h : encode n = .ok o) :
    (n.kind = .bytes ∧ ∃ b, n.asBytes = .ok b ∧ o = .raw b) ∨
    (∃ k v r, n.mapIterator = some ((k, v) :: r) ∧
      ((k ∈ tagKeys ∧ ∃ body, o = .framed b!"tag" body) ∨
       (k ∉ tagKeys ∧ (∃ body, o = .framed b!"commit" body) ∧
        ∃ c, CommitNode n c ∧ encCommit c = .ok o.bytes))) := by
  rw [encode_dispatch hf] at h
  cases hk : n.kind <;> rw [hk] at h <;> try (cases h; done)
  · left
    refine ⟨rfl, ?_⟩
    obtain ⟨b, h1, h2⟩ := Res.bind_eq_ok.1 (show (n.asBytes >>= fun b => .ok (Out.raw b)) = .ok o from h)
    cases h2
    exact ⟨b, h1, rfl⟩
  · right
    dsimp only at h
    cases hm : n.mapIterator with
    | none => rw [hm] at h; cases h
    | some es =>
      rw [hm] at h
      cases es with
      | nil => cases h
      | cons e r =>
        obtain ⟨k, v⟩ := e
        refine ⟨k, v, r, rfl, ?_⟩
        dsimp only at h
        by_cases hkk : k ∈ tagKeys
        · rw [if_pos hkk] at h
          exact Or.inl ⟨hkk, encodeTag_word h⟩
        · rw [if_neg hkk] at h
          obtain ⟨c, h1, h2, h3⟩ := encodeCommit_ok h
          exact Or.inr ⟨hkk, h3, c, h1, h2⟩

theorem entryGet_of_mem {es : List (Bytes × Node)} (hn : (es.map Prod.fst).Nodup) {k : Bytes}
    {v : Node} (h : (k, v) ∈ es) : entryGet es k = some v := by
  induction es with
  | nil => cases h
  | cons e r ih =>
    obtain ⟨k', v'⟩ := e
    rw [List.map_cons, List.nodup_cons] at hn
    unfold entryGet
    rcases List.mem_cons.1 h with h | h
    · cases h
      rw [if_pos rfl]
    · have hne : ¬ k' = k := by
        rintro rfl
        exact hn.1 (List.mem_map.2 ⟨_, h, rfl⟩)
      rw [if_neg hne]
      exact ih hn.2 h

theorem foreign_map (es : List (Bytes × Node)) : Foreign (.map es) :=
  fun _ => ⟨(fun h => by cases h), (fun h => by cases h)⟩

/-- A foreign map that denotes a tag and whose first key is not the message
encodes as that tag. -/
theorem encode_foreign_tag {es : List (Bytes × Node)} {t : Tag} (ht : TagNode (.map es) t)
    {k : Bytes} {v : Node} {r : List (Bytes × Node)} (he : es = (k, v) :: r)
    (hk : k ≠ b!"message") : encodeBytes (.map es) = encTag t := by
  have hf : Foreign (.map es) := foreign_map es
  have ht0 := ht
  obtain ⟨es', hes, ⟨k1, k2, k3⟩, a1, a2, a3, a4, a5⟩ := ht
  cases hes
  have hkt : k ∈ tagKeys := by
    have := (k2 k (by rw [he]; exact List.mem_cons_self)).resolve_right (fun h => by cases h)
    simp only [List.mem_cons, List.not_mem_nil, or_false] at this
    rcases this with rfl | rfl | rfl | rfl | rfl
    · decide
    · decide
    · decide
    · decide
    · exact absurd rfl hk
  have look : ∀ {k v}, (k, v) ∈ es → (Node.map es).lookup k = .ok v := by
    intro k v hv
    simp only [Node.lookup, entryGet_of_mem k1 hv]
  obtain ⟨v1, e1⟩ := exists_entry (k3 b!"object" (by simp))
  obtain ⟨v2, e2⟩ := exists_entry (k3 b!"type" (by simp))
  obtain ⟨v3, e3⟩ := exists_entry (k3 b!"tag" (by simp))
  obtain ⟨v4, e4⟩ := exists_entry (k3 b!"tagger" (by simp))
  obtain ⟨v5, e5⟩ := exists_entry (k3 b!"message" (by simp))
  rw [← encodeTag_of (n := .map es) (look e1) (a1 _ e1).2 (look e2) (a2 _ e2).2 (look e3)
    (a3 _ e3).2 (look e5) (a5 _ e5).2 (look e4) (a4 _ e4)]
  unfold encodeBytes
  rw [encode_dispatch hf]
  show ((match (some es : Option (List (Bytes × Node))) with
    | none => Res.panic
    | some [] => .err .iterOver
    | some ((k, _) :: _) => if k ∈ tagKeys then encodeTag (.map es) else encodeCommit (.map es)) >>= _) = _
  rw [he]
  dsimp only
  rw [if_pos hkt]

/-- The key list names a field "text" that tags do not have, and lacks "message":
a foreign map that denotes a tag is refused when the message comes first. -/
theorem encode_foreign_tag_message_first {es : List (Bytes × Node)} {v : Node}
    {r : List (Bytes × Node)} {t : Tag} (ht : TagNode (.map es) t)
    (he : es = (b!"message", v) :: r) : encode (.map es) = .err .invalidKey := by
  have hf : Foreign (.map es) := foreign_map es
  obtain ⟨es', hes, ⟨k1, k2, k3⟩, a1, a2, a3, a4, a5⟩ := ht
  cases hes
  subst he
  rw [encode_dispatch hf]
  show encodeCommit _ = _
  unfold encodeCommit
  have hv := assignString_ok.2 (a5 v List.mem_cons_self)
  cases r with
  | nil =>
    have := k3 b!"object" (by simp)
    simp at this
  | cons e r =>
    obtain ⟨k, v2⟩ := e
    have hk : commitStruct.find k = none := by
      have h1 := (k2 k (by simp)).resolve_right (fun h => by cases h)
      rw [List.map_cons, List.nodup_cons] at k1
      simp only [List.mem_cons, List.not_mem_nil, or_false] at h1
      rcases h1 with rfl | rfl | rfl | rfl | rfl
      · rfl
      · rfl
      · rfl
      · rfl
      · exact absurd List.mem_cons_self k1.1
    have hb : buildCommit (.map ((b!"message", v) :: (k, v2) :: r)) = .err .invalidKey := by
      show commitStruct.child (some Commit.zero) _ = _
      rw [commitStruct.child_some]
      show ((assignString v >>= _) >>= fun w => commitStruct.run ((k, v2) :: r) w _) = _
      rw [hv]
      simp only [Res.bind_ok, Struct.run, hk]
    rw [hb]
    rfl

/-! ## Every way to panic -/

theorem asString_no_panic (n : Node) : n.asString ≠ .panic := by
  cases n <;> try (exact fun h => by cases h)
  all_goals rename_i v; cases v <;> exact fun h => by cases h

theorem asLink_no_panic (n : Node) : n.asLink ≠ .panic := by
  cases n <;> try (exact fun h => by cases h)
  all_goals rename_i v; cases v <;> exact fun h => by cases h

theorem asBytes_no_panic (n : Node) : n.asBytes ≠ .panic := by
  cases n <;> try (exact fun h => by cases h)
  all_goals rename_i v; cases v <;> exact fun h => by cases h

theorem optLookup_no_panic {α : Type} (f : α → Own) (x : Option α) : optLookup f x ≠ .panic := by
  cases x <;> exact fun h => by cases h

theorem lookup_no_panic (n : Node) (k : Bytes) : n.lookup k ≠ .panic := by
  cases n with
  | map es =>
    unfold Node.lookup
    dsimp only
    split <;> exact fun h => by cases h
  | own v =>
    show v.lookup k ≠ .panic
    cases v <;> unfold Own.lookup <;> dsimp only <;> repeat' split
    all_goals exact fun h => by cases h
  | repr v =>
    show v.reprLookup k ≠ .panic
    cases v <;> unfold Own.reprLookup <;> dsimp only <;> repeat' split
    all_goals first | exact optLookup_no_panic _ _ | exact fun h => by cases h
  | _ => exact fun h => by cases h

theorem assignString_no_panic (n : Node) : assignString n ≠ .panic := by
  unfold assignString
  repeat' split
  all_goals first | exact asString_no_panic _ | exact fun h => by cases h

theorem assignGpgSig_no_panic (n : Node) : assignGpgSig n ≠ .panic := by
  unfold assignGpgSig
  repeat' split
  all_goals first | exact asString_no_panic _ | exact fun h => by cases h

theorem assignLink_no_panic (n : Node) : assignLink n ≠ .panic := by
  unfold assignLink
  repeat' split
  all_goals first | exact asLink_no_panic _ | exact fun h => by cases h

theorem assignTreeLink_no_panic (n : Node) : assignTreeLink n ≠ .panic := by
  unfold assignTreeLink
  repeat' split
  all_goals first | exact asLink_no_panic _ | exact fun h => by cases h

theorem assignCommitLink_no_panic (n : Node) : assignCommitLink n ≠ .panic := by
  unfold assignCommitLink
  repeat' split
  all_goals first | exact asLink_no_panic _ | exact fun h => by cases h

/-- The value at the first entry with the key. -/
def valueAt (es : List (Bytes × Node)) (k : Bytes) : Option Node := (es.find? (·.1 = k)).map (·.2)

/-- The hash that is written for a link: the last 20 bytes of a CID's multihash,
which must not be shorter, and nothing for other links. -/
def HashText (l : Link) (h : Bytes) : Prop :=
  match l with
  | .cid c => ∃ pre sha : Bytes, c.hash = pre ++ sha ∧ sha.length = 20 ∧ h = hex sha
  | _ => h = []

/-- The tagger line: none if there is no tagger or it is null. -/
def TaggerText (v : Option Node) (l : Bytes) : Prop :=
  match v with
  | none => l = []
  | some n => (n.isNull = true ∧ l = []) ∨
      (n.isNull = false ∧ ∃ p, PersonNode n p ∧ l = unlines [b!"tagger " ++ personText p])

/-- What `Encode` writes for a map that it takes for a tag. -/
def ForeignTag (es : List (Bytes × Node)) (body : Bytes) : Prop :=
  ∃ o ty tg me l typ tag msg h tl,
    valueAt es b!"object" = some o ∧ o.asLink = .ok l ∧
    valueAt es b!"type" = some ty ∧ ty.asString = .ok typ ∧
    valueAt es b!"tag" = some tg ∧ tg.asString = .ok tag ∧
    valueAt es b!"message" = some me ∧ me.asString = .ok msg ∧
    HashText l h ∧ TaggerText (valueAt es b!"tagger") tl ∧
    body = unlines [b!"object " ++ h, b!"type " ++ typ, b!"tag " ++ tag] ++ tl ++
      (if msg = [] then [] else LF :: msg)

theorem lookup_valueAt (es : List (Bytes × Node)) (k : Bytes) (v : Node) :
    (Node.map es).lookup k = .ok v ↔ valueAt es k = some v := by
  show (match entryGet es k with | some v => Res.ok v | none => .err .notExists) = .ok v ↔ _
  have : entryGet es k = valueAt es k := by
    induction es with
    | nil => rfl
    | cons e r ih =>
      obtain ⟨k', v'⟩ := e
      unfold entryGet valueAt
      by_cases h : k' = k
      · rw [if_pos h]; simp [List.find?, h]
      · rw [if_neg h, ih]; simp [List.find?, h, valueAt]
  rw [this]
  cases valueAt es k <;> simp

theorem hashText_iff (l : Link) (h : Bytes) : HashText l h ↔ ∃ b, linkSha l = .ok b ∧ h = hexEncode b := by
  cases l with
  | cid c =>
    simp only [HashText, linkSha, cidToSha]
    constructor
    · rintro ⟨pre, sha, hc, hl, rfl⟩
      have : ¬ c.hash.length < 20 := by rw [hc, List.length_append]; omega
      rw [if_neg this]
      refine ⟨_, rfl, ?_⟩
      rw [hex_eq, hc, List.length_append, hl, Nat.add_sub_cancel, List.drop_left]
    · rintro ⟨b, hb, rfl⟩
      split at hb
      · cases hb
      · cases hb
        exact ⟨c.hash.take (c.hash.length - 20), _, (List.take_append_drop _ _).symm, by simp; omega,
          (hex_eq _).symm⟩
  | _ => simp [HashText, linkSha, hexEncode]

theorem taggerText_iff (es : List (Bytes × Node)) (l : Bytes) :
    TaggerText (valueAt es b!"tagger") l ↔ encodeTagger ((Node.map es).lookup b!"tagger") = .ok l := by
  cases hv : valueAt es b!"tagger" with
  | none =>
    have hn : ∀ v, (Node.map es).lookup b!"tagger" ≠ .ok v := by
      intro v h
      rw [lookup_valueAt, hv] at h
      cases h
    have hp := lookup_no_panic (.map es) b!"tagger"
    cases hr : (Node.map es).lookup b!"tagger" with
    | ok v => exact absurd hr (hn v)
    | panic => exact absurd hr hp
    | err e => simp [TaggerText, encodeTagger, eq_comm]
  | some n =>
    rw [(lookup_valueAt _ _ _).2 hv]
    simp only [TaggerText, encodeTagger]
    cases hb : n.isNull with
    | true => simp [eq_comm]
    | false =>
      simp only [Bool.false_eq_true, if_false, false_and, true_and, false_or]
      constructor
      · rintro ⟨p, hp, rfl⟩
        rw [(build_person _ _).2 hp, Res.bind_ok, gitString_personText]
        simp [unlines]
      · intro h
        obtain ⟨p, hp, h⟩ := Res.bind_eq_ok.1 h
        cases h
        exact ⟨p, (build_person _ _).1 hp, by rw [gitString_personText]; simp [unlines]⟩

/-- Exactly which maps `Encode` writes as tags, and what it writes: other keys are
ignored, and the tagger may be missing or null. -/
theorem encode_foreign_tag_exact {es : List (Bytes × Node)} {k : Bytes} {v : Node} {r : List (Bytes × Node)}
    (he : es = (k, v) :: r) (hk : k ∈ tagKeys) (out : Bytes) :
    encodeBytes (.map es) = .ok out ↔ ∃ body, ForeignTag es body ∧ Framed b!"tag" body out := by
  have hd : encodeBytes (.map es) = encodeTag (.map es) >>= fun o => .ok o.bytes := by
    unfold encodeBytes
    rw [encode_dispatch (foreign_map es)]
    show ((match (some es : Option (List (Bytes × Node))) with
      | none => Res.panic
      | some [] => .err .iterOver
      | some ((k, _) :: _) => if k ∈ tagKeys then encodeTag (.map es) else encodeCommit (.map es)) >>= _) = _
    rw [he]
    dsimp only
    rw [if_pos hk]
  rw [hd]
  unfold encodeTag
  constructor
  · intro h
    obtain ⟨o, h, ho⟩ := Res.bind_eq_ok.1 h
    obtain ⟨x1, a1, h⟩ := Res.bind_eq_ok.1 h
    obtain ⟨x2, a2, h⟩ := Res.bind_eq_ok.1 h
    obtain ⟨x3, a3, h⟩ := Res.bind_eq_ok.1 h
    obtain ⟨x4, a4, h⟩ := Res.bind_eq_ok.1 h
    obtain ⟨x5, a5, h⟩ := Res.bind_eq_ok.1 h
    obtain ⟨x6, a6, h⟩ := Res.bind_eq_ok.1 h
    obtain ⟨x7, a7, h⟩ := Res.bind_eq_ok.1 h
    obtain ⟨x8, a8, h⟩ := Res.bind_eq_ok.1 h
    obtain ⟨x9, a9, h⟩ := Res.bind_eq_ok.1 h
    obtain ⟨x10, a10, h⟩ := Res.bind_eq_ok.1 h
    cases h
    cases ho
    refine ⟨_, ⟨x1, x3, x5, x7, x2, x4, x6, x8, hexEncode x9, x10, (lookup_valueAt _ _ _).1 a1, a2,
      (lookup_valueAt _ _ _).1 a3, a4, (lookup_valueAt _ _ _).1 a5, a6, (lookup_valueAt _ _ _).1 a7, a8,
      (hashText_iff _ _).2 ⟨_, a9, rfl⟩, (taggerText_iff _ _).2 a10, rfl⟩, ?_⟩
    have := framed_withHeader b!"tag" (b!"object " ++ hexEncode x9 ++ [LF] ++ b!"type " ++ x4 ++ [LF] ++
      b!"tag " ++ x6 ++ [LF] ++ x10 ++ (if x8 ≠ [] then LF :: x8 else []))
    have e : unlines [b!"object " ++ hexEncode x9, b!"type " ++ x4, b!"tag " ++ x6] ++ x10 ++
        (if x8 = [] then [] else LF :: x8) = b!"object " ++ hexEncode x9 ++ [LF] ++ b!"type " ++ x4 ++ [LF] ++
      b!"tag " ++ x6 ++ [LF] ++ x10 ++ (if x8 ≠ [] then LF :: x8 else []) := by
      by_cases h8 : x8 = [] <;> simp [unlines, h8]
    rw [e]
    exact this
  · rintro ⟨body, ⟨x1, x3, x5, x7, x2, x4, x6, x8, h, x10, a1, a2, a3, a4, a5, a6, a7, a8, a9, a10, rfl⟩, hf⟩
    obtain ⟨x9, b9, rfl⟩ := (hashText_iff _ _).1 a9
    rw [(lookup_valueAt _ _ _).2 a1, Res.bind_ok, a2, Res.bind_ok, (lookup_valueAt _ _ _).2 a3, Res.bind_ok, a4,
      Res.bind_ok, (lookup_valueAt _ _ _).2 a5, Res.bind_ok, a6, Res.bind_ok, (lookup_valueAt _ _ _).2 a7,
      Res.bind_ok, a8, Res.bind_ok, b9, Res.bind_ok, (taggerText_iff _ _).1 a10, Res.bind_ok, Res.bind_ok]
    rw [framed_eq hf]
    by_cases h8 : x8 = [] <;> simp [Out.bytes, unlines, h8]

/-- A map without a tagger and with a key that tags do not have. -/
example : encodeBytes (.map [(b!"type", .str b!"blob"), (b!"object", .link (gitLink (List.replicate 20 0xab))),
    (b!"x", .null), (b!"message", .str b!"hi"), (b!"tag", .str b!"v1")]) =
    .ok (b!"tag 68\x00object " ++ hex (List.replicate 20 0xab) ++ b!"\ntype blob\ntag v1\n\nhi") := by
  decide +kernel

theorem bind_no_panic {α β : Type} {x : Res α} {f : α → Res β} (h1 : x ≠ .panic)
    (h2 : ∀ a, x = .ok a → f a ≠ .panic) : (x >>= f) ≠ .panic := by
  cases x with
  | ok a => exact h2 a rfl
  | err e => exact fun h => by cases h
  | panic => exact absurd rfl h1

theorem bind_panic_cause {α β : Type} {x : Res α} {f : α → Res β} (h : (x >>= f) = .panic) :
    x = .panic ∨ ∃ a, x = .ok a ∧ f a = .panic := by
  cases x with
  | ok a => exact Or.inr ⟨a, rfl, h⟩
  | err e => cases h
  | panic => exact Or.inl rfl

theorem person_child_no_panic (w : PersonInfo) (n : Node) :
    personStruct.child (some w) n ≠ .panic := by
  refine personStruct.child_no_panic person_names personP person_respects
    (fun _ _ => personP_none _ _) ?_
  intro es _ f hf v _ w _
  simp only [personStruct, List.mem_cons, List.not_mem_nil, or_false] at hf
  rcases hf with rfl | rfl | rfl | rfl <;>
    exact bind_no_panic (assignString_no_panic _) (fun _ _ h => by cases h)

/-- A person builder never panics, whatever it is given. -/
theorem build_person_no_panic (n : Node) : buildPerson n ≠ .panic := person_child_no_panic _ n

/-- Nor does a tree entry builder. -/
theorem build_treeEntry_no_panic (n : Node) : buildTreeEntry n ≠ .panic := by
  refine treeEntryStruct.child_no_panic treeEntry_names treeEntryP treeEntry_respects
    (fun _ _ => treeEntryP_none _ _) ?_
  intro es _ f hf v _ w _
  simp only [treeEntryStruct, List.mem_cons, List.not_mem_nil, or_false] at hf
  rcases hf with rfl | rfl
  · exact bind_no_panic (assignString_no_panic _) (fun _ _ h => by cases h)
  · exact bind_no_panic (assignLink_no_panic _) (fun _ _ h => by cases h)

theorem tag_child_no_panic (w : Tag) (n : Node) : tagStruct.child (some w) n ≠ .panic := by
  refine tagStruct.child_no_panic tag_names tagP tag_respects
    (fun _ _ => tagP_none _ _) ?_
  intro es _ f hf v _ w _
  simp only [tagStruct, List.mem_cons, List.not_mem_nil, or_false] at hf
  rcases hf with rfl | rfl | rfl | rfl | rfl
  · exact bind_no_panic (assignLink_no_panic _) (fun _ _ h => by cases h)
  · exact bind_no_panic (assignString_no_panic _) (fun _ _ h => by cases h)
  · exact bind_no_panic (assignString_no_panic _) (fun _ _ h => by cases h)
  · exact bind_no_panic (person_child_no_panic _ _) (fun _ _ h => by cases h)
  · exact bind_no_panic (assignString_no_panic _) (fun _ _ h => by cases h)

/-- Nor does a tag builder. -/
theorem build_tag_no_panic (n : Node) : buildTag n ≠ .panic := tag_child_no_panic _ n

theorem assignElems_no_panic {α : Type} {f : Node → Res α} (hf : ∀ n, f n ≠ .panic)
    (ns : List Node) (acc : List α) : assignElems f ns acc ≠ .panic := by
  induction ns generalizing acc with
  | nil => exact fun h => by cases h
  | cons n r ih => exact bind_no_panic (hf n) (fun _ _ => ih _)

theorem assignList_no_panic {α : Type} {self : Node → Option (List α)} {f : Node → Res α}
    (hf : ∀ n, f n ≠ .panic) (acc : List α) (n : Node) : assignList self f acc n ≠ .panic := by
  unfold assignList
  split
  · exact fun h => by cases h
  · split
    · exact fun h => by cases h
    · split
      · exact fun h => by cases h
      · rename_i hk
        obtain ⟨ns, hns⟩ := Node.listIterator_of_kind (Decidable.not_not.1 hk)
        rw [hns]
        exact assignElems_no_panic hf _ _

/-- The keys of a person. -/
def personKeys : List Bytes := [b!"date", b!"timezone", b!"email", b!"name"]

/-- A map that is not a typed person and begins with a key of a person. -/
def UntypedPerson (v : Node) : Prop :=
  (∀ p, v ≠ .own (.person p)) ∧ ∃ k x r, v.mapIterator = some ((k, x) :: r) ∧ k ∈ personKeys

/-- A value for the author or committer that makes the commit builder panic: a
map that is not a typed person. -/
def BadPerson (n : Node) : Prop :=
  ∃ es v, n.mapIterator = some es ∧ ((b!"author", v) ∈ es ∨ (b!"committer", v) ∈ es) ∧
    UntypedPerson v

theorem child_none_panic {v : Node} (h : personStruct.child none v = .panic) :
    UntypedPerson v := by
  refine ⟨?_, ?_⟩
  · rintro p rfl
    cases h
  · rw [personStruct.child_none] at h
    split at h
    · cases h
    · split at h
      · cases h
      · split at h
        · cases h
        · rename_i hk
          cases hm : v.mapIterator with
          | none =>
            obtain ⟨es, hes⟩ := Node.mapIterator_of_kind (Decidable.not_not.1 hk)
            rw [hm] at hes
            cases hes
          | some es =>
            cases es with
            | nil => rw [hm] at h; cases h
            | cons kv r =>
              obtain ⟨k, x⟩ := kv
              rw [hm] at h
              refine ⟨k, x, r, rfl, ?_⟩
              dsimp only at h
              split at h
              · cases h
              · rename_i hf
                cases hi : personStruct.find k with
                | none => exact absurd hi hf
                | some i =>
                  have := List.findIdx?_eq_some_iff_getElem.1 hi
                  obtain ⟨hlt, hk, -⟩ := this
                  have hk : personStruct.fields[i].name = k := of_decide_eq_true hk
                  rw [← hk]
                  have : personStruct.fields[i] ∈ personStruct.fields := List.getElem_mem hlt
                  revert this
                  generalize personStruct.fields[i] = f
                  intro hf
                  simp only [personStruct, List.mem_cons, List.not_mem_nil, or_false] at hf
                  rcases hf with rfl | rfl | rfl | rfl <;> simp [personKeys]

theorem assignOnce_panic {α : Type} {r : Res α} (h : assignOnce none r = .panic) : r = .panic := by
  rcases bind_panic_cause h with h | ⟨_, _, h⟩
  · exact h
  · cases h

/-- A commit builder panics only because of an author or committer that is a map
but not a typed person. -/
theorem build_commit_panic_cause {n : Node} (h : buildCommit n = .panic) : BadPerson n := by
  refine Classical.byContradiction fun hb => ?_
  refine commitStruct.child_no_panic commit_names commitP commit_respects
    (w := Commit.zero) (fun _ _ => commitP_zero _) ?_ h
  intro es hes f hf v hv w hw
  obtain ⟨z1, z2, z3, z4, z5, z6, z7, z8, z9⟩ := hw
  simp only [commitStruct, List.mem_cons, List.not_mem_nil, or_false] at hf
  rcases hf with rfl | rfl | rfl | rfl | rfl | rfl | rfl | rfl | rfl
  · exact bind_no_panic (assignTreeLink_no_panic _) (fun _ _ h => by cases h)
  · exact bind_no_panic (assignList_no_panic assignCommitLink_no_panic _ _) (fun _ _ h => by cases h)
  · exact bind_no_panic (assignString_no_panic _) (fun _ _ h => by cases h)
  · refine bind_no_panic (fun hp => hb ?_) (fun _ _ h => by cases h)
    rw [show w.author = none from z4 rfl] at hp
    exact ⟨es, v, hes, Or.inl hv, child_none_panic (assignOnce_panic hp)⟩
  · refine bind_no_panic (fun hp => hb ?_) (fun _ _ h => by cases h)
    rw [show w.committer = none from z5 rfl] at hp
    exact ⟨es, v, hes, Or.inr hv, child_none_panic (assignOnce_panic hp)⟩
  · refine bind_no_panic (fun hp => ?_) (fun _ _ h => by cases h)
    rw [show w.encoding = none from z6 rfl] at hp
    exact assignString_no_panic _ (assignOnce_panic hp)
  · refine bind_no_panic (fun hp => ?_) (fun _ _ h => by cases h)
    rw [show w.signature = none from z7 rfl] at hp
    exact assignGpgSig_no_panic _ (assignOnce_panic hp)
  · exact bind_no_panic (assignList_no_panic (tag_child_no_panic _) _ _) (fun _ _ h => by cases h)
  · exact bind_no_panic (assignList_no_panic assignString_no_panic _ _) (fun _ _ h => by cases h)

/-- A CID whose multihash is too short to end in a SHA-1. -/
def ShortLink (l : Link) : Prop := ∃ c, l = .cid c ∧ c.hash.length < 20

theorem linkSha_panic {l : Link} : linkSha l = .panic ↔ ShortLink l := by
  constructor
  · intro h
    cases l with
    | cid c =>
      simp only [linkSha, cidToSha] at h
      split at h
      · exact ⟨c, rfl, by assumption⟩
      · cases h
    | _ => cases h
  · rintro ⟨c, rfl, h⟩
    simp only [linkSha, cidToSha, if_pos h]

theorem encParents_panic {ls : List Link} (h : encParents ls = .panic) : ∃ l ∈ ls, ShortLink l := by
  induction ls with
  | nil => cases h
  | cons l r ih =>
    rcases bind_panic_cause h with h | ⟨_, _, h⟩
    · exact ⟨l, List.mem_cons_self, linkSha_panic.1 h⟩
    · rcases bind_panic_cause h with h | ⟨_, _, h⟩
      · obtain ⟨x, hx, hs⟩ := ih h
        exact ⟨x, List.mem_cons_of_mem _ hx, hs⟩
      · cases h

theorem encMergeTags_panic {ts : List Tag} (h : encMergeTags ts = .panic) :
    ∃ t ∈ ts, ShortLink t.object := by
  induction ts with
  | nil => cases h
  | cons t r ih =>
    rcases bind_panic_cause h with h | ⟨_, _, h⟩
    · rcases bind_panic_cause h with h | ⟨_, _, h⟩
      · exact ⟨t, List.mem_cons_self, linkSha_panic.1 h⟩
      · cases h
    · rcases bind_panic_cause h with h | ⟨_, _, h⟩
      · obtain ⟨x, hx, hs⟩ := ih h
        exact ⟨x, List.mem_cons_of_mem _ hx, hs⟩
      · cases h

/-- A commit that cannot be formatted: author or committer missing, or a link
too short. -/
def BadCommit (c : Commit) : Prop :=
  c.author = none ∨ c.committer = none ∨ ShortLink c.tree ∨ (∃ l ∈ c.parents, ShortLink l) ∨
    ∃ t ∈ c.mergetag, ShortLink t.object

theorem commitBody_panic {c : Commit} (h : commitBody c = .panic) : BadCommit c := by
  unfold commitBody at h
  rcases bind_panic_cause h with h | ⟨_, _, h⟩
  · exact Or.inr (Or.inr (Or.inl (linkSha_panic.1 h)))
  rcases bind_panic_cause h with h | ⟨_, _, h⟩
  · exact Or.inr (Or.inr (Or.inr (Or.inl (encParents_panic h))))
  rcases bind_panic_cause h with h | ⟨_, _, h⟩
  · left
    cases hc : c.author with
    | none => rfl
    | some p => rw [hc] at h; cases h
  rcases bind_panic_cause h with h | ⟨_, _, h⟩
  · right; left
    cases hc : c.committer with
    | none => rfl
    | some p => rw [hc] at h; cases h
  rcases bind_panic_cause h with h | ⟨_, _, h⟩
  · exact Or.inr (Or.inr (Or.inr (Or.inr (encMergeTags_panic h))))
  · cases h

theorem encodeTag_panic {n : Node} (h : encodeTag n = .panic) :
    ∃ o l, n.lookup b!"object" = .ok o ∧ o.asLink = .ok l ∧ ShortLink l := by
  unfold encodeTag at h
  rcases bind_panic_cause h with h | ⟨o, h1, h⟩
  · exact absurd h (lookup_no_panic _ _)
  rcases bind_panic_cause h with h | ⟨l, h2, h⟩
  · exact absurd h (asLink_no_panic _)
  rcases bind_panic_cause h with h | ⟨_, _, h⟩
  · exact absurd h (lookup_no_panic _ _)
  rcases bind_panic_cause h with h | ⟨_, _, h⟩
  · exact absurd h (asString_no_panic _)
  rcases bind_panic_cause h with h | ⟨_, _, h⟩
  · exact absurd h (lookup_no_panic _ _)
  rcases bind_panic_cause h with h | ⟨_, _, h⟩
  · exact absurd h (asString_no_panic _)
  rcases bind_panic_cause h with h | ⟨_, _, h⟩
  · exact absurd h (lookup_no_panic _ _)
  rcases bind_panic_cause h with h | ⟨_, _, h⟩
  · exact absurd h (asString_no_panic _)
  rcases bind_panic_cause h with h | ⟨_, _, h⟩
  · exact ⟨o, l, h1, h2, linkSha_panic.1 h⟩
  rcases bind_panic_cause h with h | ⟨_, _, h⟩
  · unfold encodeTagger at h
    split at h
    · split at h
      · cases h
      · rcases bind_panic_cause h with h | ⟨_, _, h⟩
        · exact absurd h (build_person_no_panic _)
        · cases h
    · cases h
    · rename_i hl
      exact absurd hl (lookup_no_panic _ _)
  · cases h

/-- Every way `Encode` of a foreign node can panic: a list; a tag map whose object
link is too short; a commit map with a foreign author or committer; or a commit
map that denotes a commit without author or committer or with a short link. -/
theorem encode_panic_cause {n : Node} (hf : Foreign n) (h : encode n = .panic) :
    n.kind = .list ∨
    (∃ k v r, n.mapIterator = some ((k, v) :: r) ∧
      ((k ∈ tagKeys ∧ ∃ o l, n.lookup b!"object" = .ok o ∧ o.asLink = .ok l ∧ ShortLink l) ∨
       (k ∉ tagKeys ∧ (BadPerson n ∨ ∃ c, CommitNode n c ∧ BadCommit c)))) := by
  rw [encode_dispatch hf] at h
  cases hk : n.kind <;> rw [hk] at h <;> try (cases h; done)
  · rcases bind_panic_cause (show (n.asBytes >>= fun b => .ok (Out.raw b)) = .panic from h) with h | ⟨_, _, h⟩
    · exact absurd h (asBytes_no_panic _)
    · cases h
  · exact Or.inl rfl
  · right
    obtain ⟨es, hes⟩ := Node.mapIterator_of_kind hk
    rw [hes] at h
    cases es with
    | nil => cases h
    | cons e r =>
      obtain ⟨k, v⟩ := e
      refine ⟨k, v, r, hes, ?_⟩
      dsimp only at h
      by_cases hkk : k ∈ tagKeys
      · rw [if_pos hkk] at h
        exact Or.inl ⟨hkk, encodeTag_panic h⟩
      · rw [if_neg hkk] at h
        refine Or.inr ⟨hkk, ?_⟩
        unfold encodeCommit at h
        rcases bind_panic_cause h with h | ⟨c, h1, h⟩
        · exact Or.inl (build_commit_panic_cause h)
        · rcases bind_panic_cause h with h | ⟨_, _, h⟩
          · exact Or.inr ⟨c, build_commit_sound h1, commitBody_panic h⟩
          · cases h

/-- A list node always makes `Encode` panic: it is taken for a tree and its nil
map iterator is used. -/
theorem encode_list_panics {n : Node} (hf : Foreign n) (hk : n.kind = .list) :
    encode n = .panic := by
  rw [encode_dispatch hf, hk]

/-- A commit given as plain maps, all fields in order and well formed, makes
`Encode` panic. -/
theorem encode_foreign_commit_panics :
    ∃ n c, Foreign n ∧ CommitNode n c ∧ ¬ BadCommit c ∧ encode n = .panic := by
  let p : PersonInfo := ⟨b!"A", b!"a@b", b!"1", b!"+0000"⟩
  let l : Link := .cid ⟨1, 0x78, List.replicate 22 7⟩
  let c : Commit := ⟨l, [], b!"m", some p, some p, none, none, [], []⟩
  let n : Node := .map (Own.commit c).reprEntries
  refine ⟨n, c, foreign_map _, repr_commit c, ?_, by decide +kernel⟩
  rintro (h | h | ⟨d, h1, h2⟩ | ⟨d, h1, h2⟩ | ⟨d, h1, h2⟩)
  · cases h
  · cases h
  · cases h1
    exact absurd h2 (by decide)
  · cases h1
  · cases h1

/-- Whether a call succeeded. -/
def succeeded {α : Type} : Res α → Bool
  | .ok _ => true
  | _ => false

/-- The theorems on foreign nodes apply to ordinary nodes: plain bytes, a plain
tag map and a plain commit map with typed persons all encode. -/
example :
    let p : Node := .map [(b!"name", .str b!"A"), (b!"email", .str b!"a@b"),
      (b!"timezone", .str b!"+0000"), (b!"date", .str b!"1")]
    let q : Node := .own (.person ⟨b!"A", b!"a@b", b!"1", b!"+0000"⟩)
    let l : Node := .link (.cid ⟨1, 0x78, List.replicate 22 7⟩)
    encodeBytes (.bytes b!"blob 1\x00x") = .ok b!"blob 1\x00x" ∧
    encodeBytes (.map [(b!"object", l), (b!"type", .str b!"commit"), (b!"tag", .str b!"v"),
      (b!"tagger", p), (b!"message", .str b!"m\n")]) =
      .ok (b!"tag 92\x00object " ++ (List.replicate 20 b!"07").flatten ++ b!"\ntype commit\ntag v\n" ++
        b!"tagger A <a@b> 1 +0000\n\nm\n") ∧
    succeeded (encodeBytes (.map [(b!"tree", l), (b!"parents", .list [l]), (b!"message", .str b!"m"),
      (b!"author", q), (b!"committer", q), (b!"mergetag", .list []), (b!"other", .list [])])) = true := by
  decide +kernel

end Verif.Props
