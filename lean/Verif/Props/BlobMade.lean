import Verif.Props.Accept
import Verif.Props.Encode
import Verif.Props.View
import Verif.Props.Fsck

/-!
# C116 What a blob has to hold
-/

namespace Verif.Props

open Verif Spec

/-- What Encode writes for a blob with any bytes is read as that blob exactly if the
bytes are a content with its header. -/
theorem blob_survives (b : Bytes) (e : Err) (N : Nat) :
    (encodeBytes (.own (.blob b)) >>= fun out => parseObject (σ := Stream) ⟨out, e, N⟩) = .ok (.blob b) ↔
      ∃ content, content.length < 2 ^ 63 ∧ Framed b!"blob" content b := by
  show parseObject (σ := Stream) ⟨b, e, N⟩ = .ok (.blob b) ↔ _
  constructor
  · intro h
    obtain ⟨d, content, rest, h1, _, h3⟩ := (blob_accepts _ _).1 h
    exact ⟨content, by have := h1.2.2.2; omega, h3⟩
  · rintro ⟨content, h1, h2⟩
    have := (blob_roundtrip content b [] e N h1 h2).1
    rwa [List.append_nil] at this

/-- Text that is not so is read as a blob at most if it is the text of another one. -/
theorem blob_else (b b' : Bytes) (e : Err) (N : Nat)
    (h : (encodeBytes (.own (.blob b)) >>= fun out => parseObject (σ := Stream) ⟨out, e, N⟩) = .ok (.blob b')) :
    ∃ d content rest, SizeField d content.length ∧ b = b!"blob " ++ d ++ NUL :: (content ++ rest) ∧ Framed b!"blob" content b' :=
  (blob_accepts ⟨b, e, N⟩ b').1 h

/-- Everything that can be read is what some blob is read as. -/
theorem blob_as_other (s : Stream) (o : Obj) (h : parseObject s = .ok o) :
    (encodeBytes (.own (.blob s.rest)) >>= fun out => parseObject (σ := Stream) ⟨out, s.fin, s.bufsz⟩) = .ok o := h

/-- But what is written for an object that is no blob is never read as one of another
type. -/
theorem other_as_itself (o o' : Obj) (out : Bytes) (e : Err) (N : Nat) (ho : ∀ b, o ≠ .blob b)
    (h : encodeBytes (.own (objNode o)) = .ok out) (h' : parseObject (σ := Stream) ⟨out, e, N⟩ = .ok o') :
    typeWord o' = typeWord o := by
  rw [encode_typed] at h
  obtain ⟨d, body, _, he⟩ := encode_size o out ho h
  have key : ∀ {w x : Bytes}, out = w ++ SP :: x → SP ∉ w → w = typeWord o := by
    intro w x hw hn
    rw [he] at hw
    refine (split_first (x := d ++ NUL :: body) (y := x) (c := SP) ?_ ?_ hn).1.symm
    · simpa using hw
    · cases o <;> simp [typeWord, SP]
  rcases parse_inv_ok _ _ h' with ⟨t, s', hr, _, _, _, rfl⟩ | ⟨t, s', hr, _, _, _, rfl⟩ | ⟨t, s', hr, _, _, _, rfl⟩ |
    ⟨t, s', hr, _, _, _, rfl⟩
  all_goals exact key hr (by simp [SP, typeWord])

/-- The content of a decoded blob is what follows the first NUL. -/
theorem blob_content (s : Stream) (b : Bytes) (h : parseObject s = .ok (.blob b)) {hd content : Bytes} (hb : b = hd ++ NUL :: content)
    (hn : NUL ∉ hd) : Framed b!"blob" content b ∧ ∃ pre rest, s.rest = pre ++ content ++ rest := by
  obtain ⟨d, c, rest, h1, h2, d', h3, h4⟩ := (blob_accepts _ _).1 h
  have hd' : NUL ∉ b!"blob " ++ d' := by
    intro hm
    rcases List.mem_append.1 hm with hm | hm
    · exact absurd hm (by decide)
    · exact absurd (h3.2.1 _ hm) (by unfold Digit; decide)
  obtain ⟨_, rfl⟩ := split_first (a := hd) (b := b!"blob " ++ d') (c := NUL) (x := content) (y := c)
    (by rw [← hb, h4]; simp) hn hd'
  exact ⟨⟨d', h3, h4⟩, b!"blob " ++ d ++ [NUL], rest, by rw [h2]; simp⟩

/-- A file put into a blob without the header: the text git hashes is another one. -/
theorem bare_content (content out : Bytes) (h : Framed b!"blob" content out) : encodeBytes (.own (.blob content)) ≠ .ok out := by
  intro he
  have : content = out := Res.ok.inj he
  obtain ⟨d, _, h⟩ := h
  rw [← this] at h
  have := congrArg List.length h
  simp at this
  omega

/-- Such a file is then read as something else, here as a tree. -/
example : (encodeBytes (.own (.blob b!"tree 0\x00")) >>= fun out => parseObject (σ := Stream) ⟨out, .eof, 4096⟩) =
    .ok (.tree ⟨[], []⟩) := rfl

example : (encodeBytes (.own (.blob b!"blob 2\x00hi")) >>= fun out => parseObject (σ := Stream) ⟨out, .eof, 4096⟩) =
    .ok (.blob b!"blob 2\x00hi") := (blob_survives _ _ _).2 ⟨b!"hi", by decide, b!"2", ⟨by decide, by simp [Digit], by decide, rfl⟩, rfl⟩

end Verif.Props
