import Verif.Props.Graph
import Verif.Props.Survive
import Verif.Props.View
import Verif.Props.Encode

/-!
# C66: storing what was loaded, loading what was stored
-/

namespace Verif.Props

open Verif Spec

theorem author_none (is : List Item) (msg : Bytes) :
    (commitOf is msg).author = none ↔ ∀ p, Item.author p ∉ is := by
  have : ∀ (is : List Item) (c : Commit), (is.foldl Item.apply c).author = none ↔
      c.author = none ∧ ∀ p, Item.author p ∉ is := by
    intro is
    induction is with
    | nil => intro c; simp
    | cons i is ih =>
      intro c
      rw [List.foldl_cons, ih]
      cases i with
      | author p =>
        simp only [Item.apply, List.mem_cons, not_or]
        exact ⟨fun h => by simp at h, fun h => absurd rfl (h.2 p).1⟩
      | _ => simp [Item.apply]
  show (is.foldl Item.apply noCommit).author = none ↔ _
  rw [this]
  simp [noCommit]

theorem committer_none (is : List Item) (msg : Bytes) :
    (commitOf is msg).committer = none ↔ ∀ p, Item.committer p ∉ is := by
  have : ∀ (is : List Item) (c : Commit), (is.foldl Item.apply c).committer = none ↔
      c.committer = none ∧ ∀ p, Item.committer p ∉ is := by
    intro is
    induction is with
    | nil => intro c; simp
    | cons i is ih =>
      intro c
      rw [List.foldl_cons, ih]
      cases i with
      | committer p =>
        simp only [Item.apply, List.mem_cons, not_or]
        exact ⟨fun h => by simp at h, fun h => absurd rfl (h.2 p).1⟩
      | _ => simp [Item.apply]
  show (is.foldl Item.apply noCommit).committer = none ↔ _
  rw [this]
  simp [noCommit]

/-- What is written for a node that shows a git object. -/
theorem shows_encode {b : GitObj} (hb : b.Ok) {n : Node} (hn : Shows b n) (hr : ∀ c, n ≠ .repr (.commit c))
    {data : Bytes} (hd : b.Text data) :
    (encodeBytes n = .ok data ↔ Kept b) ∧ (encodeBytes n = .panic ↔ NoPeople b) ∧ ∀ e, encodeBytes n ≠ .err e := by
  cases hn with
  | blob c out _ h hn =>
    have hout : out = data := by rw [framed_decimal h]; exact (framed_decimal hd).symm
    subst hout
    have : n = .bytes out ∨ n = .own (.blob out) ∨ n = .repr (.blob out) := by
      unfold Node.asBytes at hn
      split at hn <;> simp at hn <;> simp [hn]
    have henc : encodeBytes n = .ok out := by rcases this with rfl | rfl | rfl <;> rfl
    rw [henc]
    simp [Kept, NoPeople]
  | tree es t _ ht ha hn =>
    have henc : encodeBytes n = .ok data := by
      have : encTree t = .ok data := by
        simp only [encTree, ht, encTreeEntries_rows es hb.2.each, Res.bind_ok]
        rw [framed_eq hd]; rfl
      rcases hn with rfl | rfl
      · rw [encode_tree_own, this]
      · rw [encode_tree_repr, this]
    rw [henc]
    simp [Kept, NoPeople]
  | commit is msg _ hn =>
    rcases hn with rfl | rfl
    case inr => exact absurd rfl (hr _)
    obtain ⟨c, h1, h2⟩ := commit_bytes_exact 4096 (Nat.le_refl _) is hb.2.1 msg data hd hb.1
    obtain ⟨h3, h4⟩ := reencode_partial _ (by show 2 ≤ 4096; omega) _ h1
    have h5 : parseObject (σ := Stream) ⟨data, .eof, 4096⟩ = .ok (.commit (commitOf is msg)) := by
      rw [parse_commit_framed hd _ _ hb.1]
      show (commitRun Commit.zero (⟨itemsBody is msg, .eof, 4096⟩ : Stream) >>= _) = _
      rw [commitRun_itemsBody is msg 4096 (Nat.le_refl _) hb.2.1]
      rfl
    have hc : c = commitOf is msg := by
      rw [h1] at h5
      cases h5
      rfl
    subst hc
    have henc : encodeBytes (.own (.commit (commitOf is msg))) = encObj (.commit (commitOf is msg)) := encode_commit_own _
    rw [henc]
    refine ⟨h2, ?_, fun e he => ?_⟩
    · rw [h3]
      show _ ↔ (_ ∨ _)
      rw [← author_none is msg, ← committer_none is msg]
      constructor
      · rintro ⟨c, hc, h⟩
        cases hc
        exact h
      · exact fun h => ⟨_, rfl, h⟩
    · obtain ⟨o, ho⟩ := h4 (by rw [he]; simp)
      rw [ho] at he
      cases he
  | tag is msg _ hn =>
    obtain ⟨t, h1, h2⟩ := tag_bytes_exact 4096 (Nat.le_refl _) is hb.2.1 msg data hd
    have h5 := parse_tagItems 4096 (Nat.le_refl _) is hb.2.1 msg data hd
    obtain ⟨h3, h4⟩ := reencode_partial _ (by show 2 ≤ 4096; omega) _ h1
    have ht : t = tagOf is (msg.getD []) := by
      rw [h1] at h5
      cases h5
      rfl
    subst ht
    have henc : encodeBytes n = encObj (.tag (tagOf is (msg.getD []))) := by
      rcases hn with rfl | rfl
      · exact encode_tag_own _
      · exact encode_tag_repr _
    rw [henc]
    refine ⟨h2, ?_, fun e he => ?_⟩
    · rw [h3]
      simp [NoPeople]
    · obtain ⟨o, ho⟩ := h4 (by rw [he]; simp)
      rw [ho] at he
      cases he

theorem store_ok {L : LinkSys} {n : Node} {b : Bytes} (h : encodeBytes n = .ok b) :
    L.store n = .ok (cidOf (L.sha1 b), { L with get := fun x => if x = cidOf (L.sha1 b) then .ok b else L.get x }) := by
  unfold LinkSys.store
  rw [h]
  rfl

/-- A node that is loaded is a view that can be stored. -/
theorem load_view {L : LinkSys} {R : Bytes → Option GitObj} (hs : Stores L R) (pol : TreeAsm → Nat) {sha : Bytes}
    {b : GitObj} (hb : R sha = some b) {np : Option Proto} {n : Node} (hl : L.load pol (gitLink sha) np = .ok n) :
    Shows b n ∧ ∀ c, n ≠ .repr (.commit c) := by
  rw [load_git] at hl
  obtain ⟨hok, data, hget, htext, hsha⟩ := hs.there sha b hb
  obtain ⟨x, hx, hshow, _, _, _, _, h5⟩ := parse_text hok htext
  rw [hget] at hl
  simp only [Res.bind_ok, hsha, if_true] at hl
  cases np with
  | none =>
    simp only [decode_parse, hx, Res.bind_ok] at hl
    cases x with
    | blob c => cases hl; exact ⟨h5 c rfl, by simp⟩
    | _ => cases hl; exact ⟨hshow, by simp⟩
  | some P =>
    simp only at hl
    obtain ⟨v, hv, hl⟩ := Res.bind_eq_ok.1 hl
    cases hl
    obtain ⟨_, o, ho, rfl⟩ := (decode_into_partial pol P ⟨data, .eof, 4096⟩ (by show 2 ≤ 4096; omega) (by simp)).2 v hv
    rw [hx] at ho
    cases ho
    exact ⟨hshow, by simp⟩

/-! ## C66 -/

/-- A loaded object is stored again under its link, and the storage stays as it
was, if the object has the form that is written for it. If it has not, storing
gives another link (unless the hash function fails to separate the two texts) and
the object under the old link stays. Only commits without an author or a committer
cannot be stored: that panics. -/
theorem store_loaded {L : LinkSys} {R : Bytes → Option GitObj} (hs : Stores L R) (pol : TreeAsm → Nat) (sha : Bytes)
    (b : GitObj) (hb : R sha = some b) (np : Option Proto) (n : Node) (hl : L.load pol (gitLink sha) np = .ok n) :
    (Kept b → ∃ L', L.store n = .ok (cidOf sha, L') ∧ L'.get = L.get) ∧
    (¬ Kept b → ¬ NoPeople b → ∃ out L', encodeBytes n = .ok out ∧ L.store n = .ok (cidOf (L.sha1 out), L') ∧
      ¬ b.Text out ∧ (L.sha1 out ≠ sha → cidOf (L.sha1 out) ≠ cidOf sha ∧ L'.get (cidOf sha) = L.get (cidOf sha))) ∧
    (NoPeople b → L.store n = .panic) := by
  obtain ⟨hn, hr⟩ := load_view hs pol hb hl
  obtain ⟨hok, data, hget, htext, hsha⟩ := hs.there sha b hb
  obtain ⟨h1, h2, h3⟩ := shows_encode hok hn hr htext
  refine ⟨fun hk => ?_, fun hk hp => ?_, fun hp => ?_⟩
  · refine ⟨_, by rw [store_ok (h1.2 hk), hsha], ?_⟩
    funext x
    show (if x = cidOf sha then _ else _) = _
    split
    · rename_i hx
      rw [hx, hget]
    · rfl
  · cases he : encodeBytes n with
    | err e => exact absurd he (h3 e)
    | panic => exact absurd (h2.1 he) hp
    | ok out =>
      refine ⟨out, _, rfl, store_ok he, fun ht => hk (h1.1 ?_), fun hne => ?_⟩
      · rw [he, framed_decimal ht, framed_decimal htext]
      · have hne' : cidOf (L.sha1 out) ≠ cidOf sha := fun h => hne ((cidOf_inj _ _).1 h)
        exact ⟨hne', if_neg fun h => hne' h.symm⟩
  · unfold LinkSys.store
    rw [h2.2 hp]
    rfl

/-- Storing a node that shows a well-formed object in the form that is written for
it adds that object to the repository under its hash. -/
theorem store_grows {L : LinkSys} {R : Bytes → Option GitObj} (hs : Stores L R) (b : GitObj) (hok : b.Ok)
    (hk : Kept b) (n : Node) (hn : Shows b n) (hr : ∀ c, n ≠ .repr (.commit c)) (data : Bytes) (hd : b.Text data) :
    ∃ L', L.store n = .ok (cidOf (L.sha1 data), L') ∧
      Stores L' (fun sha => if sha = L.sha1 data then some b else R sha) := by
  refine ⟨_, store_ok ((shows_encode hok hn hr hd).1.2 hk), ?_, ?_⟩
  · intro sha o h
    dsimp only at h ⊢
    by_cases he : sha = L.sha1 data
    · subst he
      rw [if_pos rfl] at h
      cases h
      exact ⟨hok, data, if_pos rfl, hd, rfl⟩
    · rw [if_neg he] at h
      obtain ⟨h1, d, h2, h3, h4⟩ := hs.there sha o h
      exact ⟨h1, d, by rw [if_neg (fun h => he ((cidOf_inj _ _).1 h)), h2], h3, h4⟩
  · intro sha h
    dsimp only at h ⊢
    by_cases he : sha = L.sha1 data
    · rw [if_pos he] at h
      cases h
    · rw [if_neg he] at h
      rw [if_neg (fun h => he ((cidOf_inj _ _).1 h))]
      exact hs.only sha h

/-- What is stored is loaded again from the link that storing gave, with the same
content, exactly if it can be expressed in the format. -/
theorem store_then_load (L : LinkSys) (pol : TreeAsm → Nat) (o : Obj) (hsm : Small o) (c : Cid) (L' : LinkSys)
    (h : L.store (.own (objNode o)) = .ok (c, L')) :
    (∃ m, L'.load pol (.cid c) none = .ok m ∧ Holds m o) ↔ Writable o := by
  unfold LinkSys.store at h
  obtain ⟨out, henc, h⟩ := Res.bind_eq_ok.1 h
  cases h
  have hload : ({ L with get := fun x => if x = cidOf (L.sha1 out) then .ok out else L.get x } : LinkSys).load pol
      (.cid (cidOf (L.sha1 out))) none = parseObject (σ := Stream) ⟨out, .eof, 4096⟩ >>= deliver anySink := by
    rw [← decode_parse]
    exact (load_git _ pol (L.sha1 out) none).trans (by simp [Res.bind_ok])
  rw [hload]
  rw [encode_typed] at henc
  cases o with
  | blob b =>
    cases henc
    constructor
    · rintro ⟨m, hm, hh⟩
      obtain ⟨x, hx, hm⟩ := Res.bind_eq_ok.1 hm
      cases x with
      | blob b' =>
        cases hm
        cases hh
        obtain ⟨d, content, rest, h1, h2, h3⟩ := (blob_accepts _ _).1 hx
        refine ⟨content, h3, ?_⟩
        have := h1.2.2.2
        omega
      | tree t => cases hm; cases hh
      | commit t => cases hm; cases hh
      | tag t => cases hm; cases hh
    · rintro ⟨content, h1, h2⟩
      have := (blob_roundtrip content out [] .eof 4096 h2 h1).1
      rw [List.append_nil] at this
      rw [this]
      exact ⟨.bytes out, rfl, rfl⟩
  | tree t =>
    rw [← show _ ↔ Writable (.tree t) from tree_survives t 4096 hsm]
    constructor
    · rintro ⟨m, hm, t', rfl, ht⟩
      obtain ⟨x, hx, hm⟩ := Res.bind_eq_ok.1 hm
      cases x with
      | tree t => cases hm; exact ⟨out, _, henc, hx, ht⟩
      | _ => cases hm
    · rintro ⟨out', t', h1, h2, h3⟩
      rw [henc] at h1
      cases h1
      rw [h2]
      exact ⟨_, rfl, t', rfl, h3⟩
  | tag t =>
    rw [← show _ ↔ Writable (.tag t) from tag_survives 4096 (Nat.le_refl _) t hsm.1 hsm.2.1 hsm.2.2]
    constructor
    · rintro ⟨m, hm, rfl⟩
      obtain ⟨x, hx, hm⟩ := Res.bind_eq_ok.1 hm
      cases x with
      | tag t => cases hm; exact ⟨out, henc, hx⟩
      | _ => cases hm
    · rintro ⟨out', h1, h2⟩
      rw [henc] at h1
      cases h1
      rw [h2]
      exact ⟨_, rfl, rfl⟩
  | commit c =>
    rw [← show _ ↔ Writable (.commit c) from commit_survives 4096 (Nat.le_refl _) c
      (fun a k ha hk => (hsm a k ha hk).1) (fun a k ha hk => (hsm a k ha hk).2)]
    constructor
    · rintro ⟨m, hm, rfl⟩
      obtain ⟨x, hx, hm⟩ := Res.bind_eq_ok.1 hm
      cases x with
      | commit t => cases hm; exact ⟨out, henc, hx⟩
      | _ => cases hm
    · rintro ⟨out', h1, h2⟩
      rw [henc] at h1
      cases h1
      rw [h2]
      exact ⟨_, rfl, rfl⟩

/-- In the repository of the path examples, the first commit is stored under its
link; the tag has no tagger line and gets one, so that it is stored under another
link. -/
example : Kept exCommit ∧ ¬ Kept exTag ∧ ¬ NoPeople exCommit ∧ ¬ NoPeople exTag ∧
    exLinkSys.sha1 (textOf exTag) = exSha 80 ∧
    ∃ out, encodeBytes (.own (.tag (tagOf [.object (hex (exSha 208)) (exSha 208), .typ b!"commit", .tag b!"v1"]
      b!"three"))) = .ok out ∧ exLinkSys.sha1 out = exSha 91 := by
  refine ⟨⟨exSha 37, [], samplePerson, samplePerson, none, [], none, [], rfl⟩, ?_, ?_, id, by decide +kernel,
    _, rfl, by decide +kernel⟩
  · rintro ⟨⟨_, _, _, _, h⟩, _⟩
    simp at h
  · rintro (h | h)
    · exact h samplePerson (by simp)
    · exact h samplePerson (by simp)

/-- A tag that can be stored and is not what is loaded again: its name has a line
break. -/
example : Small (.tag { noTag with object := gitLink (exSha 1), tag := b!"a\nb" }) ∧
    ¬ Writable (.tag { noTag with object := gitLink (exSha 1), tag := b!"a\nb" }) ∧
    ∃ c L', exLinkSys.store (.own (.tag { noTag with object := gitLink (exSha 1), tag := b!"a\nb" })) = .ok (c, L') := by
  refine ⟨⟨by decide, by decide, by decide⟩, fun h => h.tag.noLF (by decide), _, _, rfl⟩

end Verif.Props
