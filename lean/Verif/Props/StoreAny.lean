import Verif.Props.Store
import Verif.Props.Given

/-!
# C66: blocks of any content
-/

namespace Verif.Props

open Verif Spec

/-- A node that is loaded from any block holds what the block is read as. -/
theorem load_block {L : LinkSys} (pol : TreeAsm → Nat) {sha data : Bytes} (hget : L.get (cidOf sha) = .ok data)
    {np : Option Proto} {n : Node} (hl : L.load pol (gitLink sha) np = .ok n) :
    L.sha1 data = sha ∧ ∃ o, parseObject (σ := Stream) ⟨data, .eof, 4096⟩ = .ok o ∧ encodeBytes n = encObj o := by
  rw [load_git, hget] at hl
  simp only [Res.bind_ok] at hl
  split at hl
  · rename_i hsha
    refine ⟨((cidOf_inj _ _).1 hsha).symm, ?_⟩
    cases np with
    | none =>
      simp only [decode_parse] at hl
      obtain ⟨o, ho, hl⟩ := Res.bind_eq_ok.1 hl
      refine ⟨o, ho, ?_⟩
      cases o with
      | blob b => cases hl; rfl
      | tree t => cases hl; exact encode_typed (.tree t)
      | commit c => cases hl; exact encode_typed (.commit c)
      | tag t => cases hl; exact encode_typed (.tag t)
    | some P =>
      simp only at hl
      obtain ⟨v, hv, hl⟩ := Res.bind_eq_ok.1 hl
      cases hl
      obtain ⟨_, o, ho, rfl⟩ := (decode_into_partial pol P ⟨data, .eof, 4096⟩ (by show 2 ≤ 4096; omega) (by simp)).2 v hv
      refine ⟨o, ho, ?_⟩
      rw [← encode_typed o]
      cases o <;> rfl
  · cases hl

/-- Whatever block is loaded, with whatever prototype: storing the node again gives
the link of the block, and the storage stays as it was, if the block is the plain
form of an object. If it is not, another text is stored, or none. -/
theorem store_block (L : LinkSys) (pol : TreeAsm → Nat) (sha data : Bytes) (hget : L.get (cidOf sha) = .ok data)
    (hlen : data.length < 2 ^ 63) (np : Option Proto) (n : Node) (hl : L.load pol (gitLink sha) np = .ok n) :
    (PlainFile 4096 data → ∃ L', L.store n = .ok (cidOf sha, L') ∧ L'.get = L.get) ∧
    (¬ PlainFile 4096 data → ∀ c L', L.store n = .ok (c, L') → ∃ out, out ≠ data ∧ c = cidOf (L.sha1 out) ∧
      L'.get c = .ok out ∧ (L.sha1 out ≠ sha → L'.get (cidOf sha) = .ok data)) := by
  obtain ⟨hsha, o, ho, he⟩ := load_block pol hget hl
  constructor
  · intro hp
    obtain ⟨o', ho', he'⟩ := (given_exact 4096 (by omega) data hlen).2 hp
    rw [ho] at ho'
    cases ho'
    rw [he'] at he
    refine ⟨_, by rw [store_ok he, hsha], ?_⟩
    funext x
    show (if x = cidOf sha then _ else _) = _
    split
    · rename_i hx
      rw [hx, hget]
    · rfl
  · intro hp c L' hs
    unfold LinkSys.store at hs
    obtain ⟨out, henc, hs⟩ := Res.bind_eq_ok.1 hs
    cases hs
    refine ⟨out, ?_, rfl, if_pos rfl, fun hne => ?_⟩
    · rintro rfl
      exact hp ((given_exact 4096 (by omega) out hlen).1 ⟨o, ho, by rw [← he, henc]⟩)
    · show (if cidOf sha = cidOf (L.sha1 out) then _ else _) = _
      rw [if_neg fun h => hne ((cidOf_inj _ _).1 h).symm]
      exact hget

/-- So, as long as the hash separates texts, the link stays the same exactly if the
block is the plain form of an object. -/
theorem store_block_exact (L : LinkSys) (pol : TreeAsm → Nat) (sha data : Bytes) (hget : L.get (cidOf sha) = .ok data)
    (hlen : data.length < 2 ^ 63) (hsep : ∀ x, L.sha1 x = sha → x = data) (np : Option Proto) (n : Node)
    (hl : L.load pol (gitLink sha) np = .ok n) : (∃ L', L.store n = .ok (cidOf sha, L')) ↔ PlainFile 4096 data := by
  obtain ⟨h1, h2⟩ := store_block L pol sha data hget hlen np n hl
  constructor
  · rintro ⟨L', hs⟩
    apply Classical.byContradiction
    intro hp
    obtain ⟨out, hne, hc, _⟩ := h2 hp _ _ hs
    exact hne (hsep out ((cidOf_inj _ _).1 hc).symm)
  · intro hp
    obtain ⟨L', hs, _⟩ := h1 hp
    exact ⟨L', hs⟩

/-- What is stored is loaded again from the link that storing gave, with the same
content, exactly if it can be expressed in the format and fits the buffer. -/
theorem store_then_load_any (L : LinkSys) (pol : TreeAsm → Nat) (o : Obj)
    (hsm : ∀ out, encObj o = .ok out → out.length < 2 ^ 63) (c : Cid) (L' : LinkSys)
    (h : L.store (.own (objNode o)) = .ok (c, L')) :
    (∃ m, L'.load pol (.cid c) none = .ok m ∧ Holds m o) ↔ Storable o := by
  unfold LinkSys.store at h
  obtain ⟨out, henc, h⟩ := Res.bind_eq_ok.1 h
  cases h
  have hload : ({ L with get := fun x => if x = cidOf (L.sha1 out) then .ok out else L.get x } : LinkSys).load pol
      (.cid (cidOf (L.sha1 out))) none = parseObject (σ := Stream) ⟨out, .eof, 4096⟩ >>= deliver anySink := by
    rw [← decode_parse]
    exact (load_git _ pol (L.sha1 out) none).trans (by simp [Res.bind_ok])
  rw [hload]
  rw [encode_typed] at henc
  cases o with
  | blob b =>
    cases henc
    constructor
    · rintro ⟨m, hm, hh⟩
      obtain ⟨x, hx, hm⟩ := Res.bind_eq_ok.1 hm
      cases x with
      | blob b' =>
        cases hm
        cases hh
        obtain ⟨d, content, rest, h1, h2, h3⟩ := (blob_accepts _ _).1 hx
        refine ⟨content, h3, ?_⟩
        have := h1.2.2.2
        omega
      | tree t => cases hm; cases hh
      | commit t => cases hm; cases hh
      | tag t => cases hm; cases hh
    · rintro ⟨content, h1, h2⟩
      have := (blob_roundtrip content out [] .eof 4096 h2 h1).1
      rw [List.append_nil] at this
      rw [this]
      exact ⟨.bytes out, rfl, rfl⟩
  | tree t =>
    rw [← show _ ↔ Storable (.tree t) from tree_survives t 4096 hsm]
    constructor
    · rintro ⟨m, hm, t', rfl, ht⟩
      obtain ⟨x, hx, hm⟩ := Res.bind_eq_ok.1 hm
      cases x with
      | tree t => cases hm; exact ⟨out, _, henc, hx, ht⟩
      | _ => cases hm
    · rintro ⟨out', t', h1, h2, h3⟩
      rw [henc] at h1
      cases h1
      rw [h2]
      exact ⟨_, rfl, t', rfl, h3⟩
  | tag t =>
    rw [← show _ ↔ Storable (.tag t) from tag_survives_exact 4096 (Nat.le_refl _) t]
    constructor
    · rintro ⟨m, hm, rfl⟩
      obtain ⟨x, hx, hm⟩ := Res.bind_eq_ok.1 hm
      cases x with
      | tag t => cases hm; exact ⟨out, henc, hx⟩
      | _ => cases hm
    · rintro ⟨out', h1, h2⟩
      rw [henc] at h1
      cases h1
      rw [h2]
      exact ⟨_, rfl, rfl⟩
  | commit c =>
    constructor
    · rintro ⟨m, hm, rfl⟩
      obtain ⟨x, hx, hm⟩ := Res.bind_eq_ok.1 hm
      cases x with
      | commit t => cases hm; exact commit_survives_fits 4096 (Nat.le_refl _) _ ⟨out, henc, hx⟩
      | _ => cases hm
    · rintro ⟨a, k, hc⟩
      have hl := hsm out henc
      have henc' := commitFits_enc hc
      rw [henc] at henc'
      rw [Res.ok.inj henc'] at hl
      obtain ⟨out', h1, h2⟩ := fits_survives 4096 (Nat.le_refl _) c a k hc (Nat.lt_of_le_of_lt (withHeader_length _ _) hl)
      rw [henc] at h1
      cases h1
      rw [h2]
      exact ⟨_, rfl, rfl⟩

/-- A storage of one block, whose hash is the identity. -/
def oneBlock (data : Bytes) : LinkSys := ⟨fun _ => .ok data, id, .eof, fun _ => .panic⟩

theorem oneBlock_load (data : Bytes) (pol : TreeAsm → Nat) :
    (oneBlock data).load pol (gitLink data) none = decode anySink (⟨data, .eof, 4096⟩ : Stream) := by
  rw [load_git]
  simp [oneBlock, Res.bind_ok]

/-- A block that is loaded and keeps its link. -/
example (pol : TreeAsm → Nat) : (oneBlock b!"blob 3\x00a\nb").get (cidOf b!"blob 3\x00a\nb") = .ok b!"blob 3\x00a\nb" ∧
    (∃ n, (oneBlock b!"blob 3\x00a\nb").load pol (gitLink b!"blob 3\x00a\nb") none = .ok n) ∧
    (∀ x, (oneBlock b!"blob 3\x00a\nb").sha1 x = b!"blob 3\x00a\nb" → x = b!"blob 3\x00a\nb") ∧
    PlainFile 4096 b!"blob 3\x00a\nb" := by
  refine ⟨rfl, ⟨.bytes b!"blob 3\x00a\nb", ?_⟩, fun _ h => h, .blob b!"a\nb" ?_⟩
  · rw [oneBlock_load]
    rfl
  · have : b!"blob 3\x00a\nb" = withHeader b!"blob" b!"a\nb" := by decide +kernel
    rw [this]
    exact framed_withHeader _ _

/-- A tree whose last entry is cut off is loaded and does not keep its link. -/
example (pol : TreeAsm → Nat) :
    (∃ n, (oneBlock b!"tree 5\x00100").load pol (gitLink b!"tree 5\x00100") none = .ok n) ∧
    ¬ PlainFile 4096 b!"tree 5\x00100" := by
  have h : parseObject (σ := Stream) ⟨b!"tree 5\x00100", .eof, 4096⟩ = .ok (.tree (treeOf [])) := by rfl
  refine ⟨⟨_, by rw [oneBlock_load, decode_parse, h]; rfl⟩, fun hp => ?_⟩
  obtain ⟨o, ho, he⟩ := (given_exact 4096 (by omega) _ (by decide)).2 hp
  rw [h] at ho
  cases ho
  exact absurd (Res.ok.inj he) (by decide)

/-- A tag that can be stored and loaded again though its tagger line fills the buffer. -/
example : Storable (.tag { sampleTag with tagger := longPerson, message := [] }) ∧
    ¬ Small (.tag { sampleTag with tagger := longPerson, message := [] }) := by
  refine ⟨⟨⟨_, by decide, rfl⟩, headerLine_mk (by decide) (by omega), headerLine_mk (by decide) (by omega),
    longPerson_ok, by decide +kernel, by decide +kernel, by decide +kernel⟩, fun h => ?_⟩
  exact absurd h.2.2 (by decide +kernel)

end Verif.Props
