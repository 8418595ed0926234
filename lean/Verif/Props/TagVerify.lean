import Verif.Props.Given
import Verif.Props.TagSign
import Verif.Props.View
import Verif.Props.Links
import Verif.Props.Same

/-!
# C124 Whether signatures of tags still verify
-/

namespace Verif.Props

open Verif Spec

/-- The file is decoded as a tag, and in what is written for it git finds the signature
of the text. -/
def TagVerifies (N : Nat) (x payload sig : Bytes) : Prop :=
  ∃ t y body', parseObject (σ := Stream) ⟨x, .eof, N⟩ = .ok (.tag t) ∧ encodeBytes (.own (.tag t)) = .ok y ∧
    Framed b!"tag" body' y ∧ GitTagSigned body' payload sig

/-- Take any file with a tag in which git finds a signature. In what is written for the
decoded tag git finds the signature of the same text exactly if the tag is the plain text
of a value that fits the format and the buffer; then every byte is the same. -/
theorem tag_verify_exact (N : Nat) (hN : 4096 ≤ N) (body x payload sig : Bytes) (hx : Framed b!"tag" body x)
    (hlen : x.length < 2 ^ 63) (hg : GitTagSigned body payload sig) :
    (TagVerifies N x payload sig ↔ ∃ t, TagFits N t ∧ body = tagWhole t) ∧
    (TagVerifies N x payload sig ↔ GivenBack N x) := by
  have h2 : TagVerifies N x payload sig ↔ GivenBack N x := by
    constructor
    · rintro ⟨t, y, body', hp, he, hy, hs⟩
      have hb : body' = body := hs.1.trans hg.1.symm
      subst hb
      obtain rfl : y = x := (framed_eq hy).trans (framed_eq hx).symm
      exact ⟨_, hp, (encode_typed (.tag t)).symm.trans he⟩
    · rintro ⟨o, hp, he⟩
      obtain ⟨b, hb, _⟩ := reencode_growth ⟨x, .eof, N⟩ (show 58 ≤ N by omega) o hp x he
      cases o with
      | tag t => exact ⟨t, x, body, hp, (encode_typed (.tag t)).trans he, hx, hg⟩
      | _ => exact (framed_kind hx hb (by simp [typeWord]) (by decide) (by simp [typeWord])).elim
  refine ⟨h2.trans ((given_exact N hN x hlen).trans ⟨?_, ?_⟩), h2⟩
  · intro h
    cases h with
    | tag t ok h => exact ⟨t, ok, framed_same hx h⟩
    | blob _ h => exact (framed_kind hx h (by decide) (by decide) (by decide)).elim
    | tree _ _ h => exact (framed_kind hx h (by decide) (by decide) (by decide)).elim
    | commit _ _ _ _ h => exact (framed_kind hx h (by decide) (by decide) (by decide)).elim
  · rintro ⟨t, ok, rfl⟩
    exact .tag t ok hx

/-- Whatever the size of the tag is said to be, the same holds of its text. -/
theorem tag_verify_size (N : Nat) (hN : 4096 ≤ N) (d body payload sig : Bytes) (hd : NUL ∉ d)
    (hlen : (withHeader b!"tag" body).length < 2 ^ 63) (hg : GitTagSigned body payload sig) :
    TagVerifies N (b!"tag" ++ SP :: (d ++ NUL :: body)) payload sig ↔ ∃ t, TagFits N t ∧ body = tagWhole t := by
  refine Iff.trans ?_ (tag_verify_exact N hN body _ payload sig (framed_withHeader _ _) hlen hg).1
  unfold TagVerifies
  rw [size_unshown (d' := decimal body.length) (.inr ⟨rfl, hd⟩) (.inr ⟨rfl, nul_notin_decimal _⟩) body .eof N,
    show b!"tag" ++ SP :: (decimal body.length ++ NUL :: body) = withHeader b!"tag" body by simp [withHeader]]

theorem getLast?_behind (a : Bytes) {b : Bytes} (h : b ≠ []) : (a ++ b).getLast? = b.getLast? := by
  rw [List.getLast?_append]
  cases hl : b.getLast? with
  | none => exact absurd (List.getLast?_eq_none_iff.1 hl) h
  | some c => rfl

/-- The signature itself is not lost as long as it stands in the message of the node: git
finds it in what is written, but of another text if any byte has changed. -/
theorem tag_verify_kept (N : Nat) (hN : 2 ≤ N) (body x payload sig : Bytes) (hx : Framed b!"tag" body x)
    (hg : GitTagSigned body payload sig) (hp : payload ≠ []) (t : Tag)
    (h : parseObject (σ := Stream) ⟨x, .eof, N⟩ = .ok (.tag t)) (hs : sig <:+ t.message) :
    ∃ y body' payload', encodeBytes (.own (.tag t)) = .ok y ∧ Framed b!"tag" body' y ∧ GitTagSigned body' payload' sig ∧
      (payload' = payload ↔ y = x) := by
  obtain ⟨y, hy⟩ := (reencode_partial _ hN _ h).2 (by
    intro hpanic
    obtain ⟨c, hc, _⟩ := (reencode_partial _ hN _ h).1.1 hpanic
    cases hc)
  have hfrom : PlainTagFrom x t := decoded_from_stream ⟨x, .eof, N⟩ hN _ h
  obtain ⟨hb, hlast, hts⟩ := hg
  have hs0 : sig ≠ [] := by
    rintro rfl
    obtain ⟨⟨m, hm, hpre⟩, _⟩ := hts
    simp only [List.prefix_nil] at hpre
    subst hpre
    exact absurd hm (by decide)
  have hm0 : t.message ≠ [] := by
    intro h0
    rw [h0, List.suffix_nil] at hs
    exact hs0 hs
  obtain ⟨q, hq⟩ := hs
  have hq' : q = [] ∨ q.getLast? = some LF := by
    by_cases hq0 : q = []
    · exact .inl hq0
    refine .inr ?_
    obtain ⟨r, hr⟩ : t.message <:+ x := hfrom.message.resolve_left hm0
    have hx' : x = (b!"tag" ++ [SP] ++ decimal body.length ++ [NUL] ++ payload) ++ sig := by
      rw [framed_eq hx, withHeader, hb]
      simp
    rw [← hq, ← List.append_assoc, hx'] at hr
    have he := List.append_cancel_right hr
    have hl := congrArg List.getLast? he
    rw [getLast?_behind _ hq0, getLast?_behind _ hp] at hl
    rw [hl]
    exact hlast.resolve_left hp
  have henc := hy
  simp only [encObj] at henc
  obtain ⟨hh, h1, h2⟩ := Res.bind_eq_ok.1 henc
  generalize hpre : b!"object " ++ hexEncode hh ++ [LF] ++ b!"type " ++ t.typ ++ [LF] ++ b!"tag " ++ t.tag ++ [LF]
        ++ b!"tagger " ++ gitString t.tagger ++ [LF] = pre at h2
  rw [if_pos hm0, ← hq] at h2
  have hyb : Framed b!"tag" ((pre ++ LF :: q) ++ sig) y := by
    rw [← Res.ok.inj h2, List.append_assoc, List.cons_append]
    exact framed_withHeader _ _
  refine ⟨y, _, pre ++ LF :: q, (encode_typed (.tag t)).trans hy, hyb, ⟨rfl, .inr ?_, hts⟩, ?_, ?_⟩
  · rw [getLast?_behind _ (by simp)]
    rcases hq' with rfl | hq'
    · rfl
    · rw [List.getLast?_cons, hq']; rfl
  · intro he
    rw [he, ← hb] at hyb
    exact (framed_eq hyb).trans (framed_eq hx).symm
  · rintro rfl
    have := framed_same hyb hx
    rw [hb] at this
    exact List.append_cancel_right this

/-- A tag that git makes and signs, in any format, with header lines of any length: git
finds the signature of the tag as it was before. After decoding and encoding it still does
exactly if the header lines are shorter than the buffer and none ends in CR. -/
theorem tag_verify_made (N : Nat) (hN : 4096 ≤ N) (more : Bytes) (t : MadeTag) (h : t.Ok)
    (hm : t.msg = [] ∨ t.msg.getLast? = some LF) (sig : Bytes) (hs : TagSig sig) (x : Bytes)
    (hx : Framed b!"tag" ({ t with msg := t.msg ++ sig }.body more) x) (hlen : x.length < 2 ^ 63) :
    GitTagSigned ({ t with msg := t.msg ++ sig }.body more) (t.body more) sig ∧
    (TagVerifies N x (t.body more) sig ↔ LinesFit N (t.lines more)) := by
  have hs0 : sig ≠ [] := by
    rintro rfl
    obtain ⟨⟨m, hm, hpre⟩, _⟩ := hs
    simp only [List.prefix_nil] at hpre
    subst hpre
    exact absurd hm (by decide)
  have hg : GitTagSigned ({ t with msg := t.msg ++ sig }.body more) (t.body more) sig := by
    refine ⟨by simp [MadeTag.body, MadeTag.lines], .inr ?_, hs⟩
    rw [MadeTag.body, getLast?_behind _ (by simp)]
    rcases hm with hm | hm
    · rw [hm]; rfl
    · rw [List.getLast?_cons, hm]; rfl
  refine ⟨hg, (tag_verify_exact N hN _ x _ _ hx hlen hg).2.trans ?_⟩
  refine (given_tag N hN more { t with msg := t.msg ++ sig } ⟨h.1, h.2, h.3, h.4⟩ x hx hlen).trans ⟨fun h => h.2, fun h => ⟨by simp [hs0], h⟩⟩

/-! ## Cases -/

/-- A tag of git with an SSH signature. -/
def sshTag : MadeTag := { madeTag with msg := b!"First\n" }

example : GitTagSigned ({ sshTag with msg := sshTag.msg ++ armourText .ssh [b!"U1NIU0lH"] }.body marks) (sshTag.body marks)
      (armourText .ssh [b!"U1NIU0lH"]) ∧
    TagVerifies 4096 (withHeader b!"tag" ({ sshTag with msg := sshTag.msg ++ armourText .ssh [b!"U1NIU0lH"] }.body marks))
      (sshTag.body marks) (armourText .ssh [b!"U1NIU0lH"]) := by
  have h := tag_verify_made 4096 (Nat.le_refl _) marks sshTag ⟨by decide, by decide, by decide, madeIdent_ok⟩ (.inr rfl) _ TagSignExample.ssh_ok _
    (framed_withHeader _ _) (by decide +kernel)
  refine ⟨h.1, h.2.2 ?_⟩
  unfold LinesFit
  decide +kernel

/-- With a size that is no number it verifies too. -/
example : TagVerifies 4096 (b!"tag" ++ SP :: (b!"?" ++ NUL ::
      { sshTag with msg := sshTag.msg ++ armourText .ssh [b!"U1NIU0lH"] }.body marks))
      (sshTag.body marks) (armourText .ssh [b!"U1NIU0lH"]) := by
  have h := tag_verify_made 4096 (Nat.le_refl _) marks sshTag ⟨by decide, by decide, by decide, madeIdent_ok⟩ (.inr rfl) _
    TagSignExample.ssh_ok _ (framed_withHeader _ _) (by decide +kernel)
  have hv := h.2.2 (by unfold LinesFit; decide +kernel)
  exact (tag_verify_size 4096 (Nat.le_refl _) b!"?" _ _ _ (by decide) (by decide +kernel) h.1).2
    ((tag_verify_exact 4096 (Nat.le_refl _) _ _ _ _ (framed_withHeader _ _) (by decide +kernel) h.1).1.1 hv)

/-- A tag with a header that the package does not know, and what was signed of it. -/
def notedPayload : Bytes := b!"object " ++ someHash ++ b!"\ntype commit\ntag v1\ntagger A <a> 1 +0000\nnote x\n\nFirst\n"

def notedText : Bytes := withHeader b!"tag" (notedPayload ++ armourText .ssh [b!"U1NIU0lH"])

def notedTag : Tag :=
  { object := (gitLink (List.replicate 20 0xaa)), typ := b!"commit", tag := b!"v1",
    tagger := { name := b!"A", email := b!"a", date := b!"1", timezone := b!"+0000" },
    message := b!"First\n" ++ armourText .ssh [b!"U1NIU0lH"] }

/-- The header is dropped, the signature is kept, and it no longer is that of what git
finds. -/
example : ¬ TagVerifies 4096 notedText notedPayload (armourText .ssh [b!"U1NIU0lH"]) ∧
    ∃ y body' payload', encodeBytes (.own (.tag notedTag)) = .ok y ∧ Framed b!"tag" body' y ∧
      GitTagSigned body' payload' (armourText .ssh [b!"U1NIU0lH"]) ∧ payload' ≠ notedPayload := by
  have hg : GitTagSigned (notedPayload ++ armourText .ssh [b!"U1NIU0lH"]) notedPayload (armourText .ssh [b!"U1NIU0lH"]) :=
    ⟨rfl, .inr (by decide +kernel), TagSignExample.ssh_ok⟩
  have hp : parseObject (σ := Stream) ⟨notedText, .eof, 4096⟩ = .ok (.tag notedTag) := by decide +kernel
  obtain ⟨y, body', payload', h1, h2, h3, h4⟩ := tag_verify_kept 4096 (by decide) _ notedText _ _ (framed_withHeader _ _) hg
    (by decide +kernel) notedTag hp ⟨b!"First\n", rfl⟩
  have hne : y ≠ notedText := by
    rintro rfl
    exact absurd h1 (by decide +kernel)
  refine ⟨?_, y, body', payload', h1, h2, h3, fun h => hne (h4.1 h)⟩
  intro hv
  obtain ⟨o, hp', he⟩ := (tag_verify_exact 4096 (Nat.le_refl _) _ notedText _ _ (framed_withHeader _ _) (by decide +kernel) hg).2.1 hv
  rw [hp] at hp'
  obtain rfl := Res.ok.inj hp'
  rw [← encode_typed] at he
  exact hne (Res.ok.inj (h1.symm.trans he))

end Verif.Props
