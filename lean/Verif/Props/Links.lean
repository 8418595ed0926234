import Verif.Props.Blob
import Verif.Props.Headers
import Verif.Props.Tree

/-!
# Links and references: C15, C16, C17, C18, C43
-/

namespace Verif.Props

open Verif Spec

/-! ## C18 Hash to link and back -/

/-- A 20-byte hash becomes a git link, and the link gives the hash back. -/
theorem sha_to_link (sha : Bytes) (h : sha.length = 20) :
    ∃ c, shaToCid sha = .ok c ∧ .cid c = gitLink sha ∧ cidToSha c = .ok sha ∧ linkSha (.cid c) = .ok sha :=
  ⟨gitCid sha, shaToCid_ok sha h, rfl, cidToSha_gitCid sha h, linkSha_gitCid sha h⟩

/-- Distinct hashes give distinct links. -/
theorem sha_to_link_injective (a b : Bytes) (c : Cid) (ha : shaToCid a = .ok c) (hb : shaToCid b = .ok c) :
    a = b := by
  obtain ⟨_, h1⟩ := (shaToCid_eq_ok _ _).1 ha
  obtain ⟨_, h2⟩ := (shaToCid_eq_ok _ _).1 hb
  rw [h1] at h2
  simpa [gitCid] using h2

/-- Every other length is rejected. -/
theorem sha_to_link_rejects (sha : Bytes) (h : sha.length ≠ 20) : shaToCid sha = .err .badSha := by
  simp [shaToCid, gitShaLen, h]

example : (List.replicate 20 (7 : UInt8)).length = 20 ∧ shaToCid (List.replicate 32 (7 : UInt8)) = .err .badSha := by
  decide

/-! ## C15 Announced size is the body length -/

/-- The word a git object of this type starts with. -/
def typeWord : Obj → Bytes
  | .blob _ => b!"blob"
  | .tree _ => b!"tree"
  | .commit _ => b!"commit"
  | .tag _ => b!"tag"

/-- Whenever a tree, commit or tag is encoded, the output is `<type> <n>\0` and
exactly `n` more bytes, `n` in canonical decimal. -/
theorem encode_size (o : Obj) (out : Bytes) (ho : ∀ b, o ≠ .blob b) (h : encObj o = .ok out) :
    ∃ d body, Canonical d body.length ∧ out = typeWord o ++ SP :: (d ++ NUL :: body) := by
  cases o with
  | blob b => exact absurd rfl (ho b)
  | tree t =>
    obtain ⟨body, _, h⟩ := Res.bind_eq_ok.1 h
    simp only [Res.ok.injEq] at h
    obtain ⟨d, hd, ho⟩ := framed_withHeader b!"tree" body
    exact ⟨d, body, hd, by rw [← h]; exact ho⟩
  | commit c =>
    obtain ⟨_, _, _, _, _, _, _, _, _, _, h⟩ := encCommit_inv c out h
    rw [h]
    obtain ⟨d, hd, ho⟩ := framed_withHeader b!"commit" _
    exact ⟨d, _, hd, ho⟩
  | tag t =>
    obtain ⟨x, _, h⟩ := Res.bind_eq_ok.1 h
    simp only [Res.ok.injEq] at h
    obtain ⟨d, hd, ho⟩ := framed_withHeader b!"tag" _
    exact ⟨d, _, hd, by rw [← h]; exact ho⟩

/-- Blobs carry their header with them: a decoded blob is encoded with a correct
header as well. -/
theorem encode_size_blob (s : Stream) (b out : Bytes) (hp : parseObject s = .ok (.blob b))
    (h : encObj (.blob b) = .ok out) :
    ∃ d body, Canonical d body.length ∧ out = b!"blob" ++ SP :: (d ++ NUL :: body) := by
  obtain ⟨_, content, _, _, _, ⟨d, hd, ho⟩, _⟩ := blob_canonical s b hp
  simp only [encObj, Res.ok.injEq] at h
  exact ⟨d, content, hd, by rw [← h]; exact ho⟩

example : ∃ out, encObj (.tag sampleTag) = .ok out ∧ ∀ b, Obj.tag sampleTag ≠ .blob b := by
  refine ⟨_, rfl, by simp⟩

/-! ## C17 Malformed references are rejected -/

/-- The text is exactly 40 hexadecimal digits. -/
def Is40Hex (x : Bytes) : Prop := x.length = 40 ∧ ∀ c ∈ x, c ∈ b!"0123456789abcdefABCDEF"

theorem hexDigit_mem : ∀ c : Fin 256, (hexVal (UInt8.ofNat c.val)).isSome = true ↔
    UInt8.ofNat c.val ∈ b!"0123456789abcdefABCDEF" := by decide +kernel

theorem hexVal_mem (c : UInt8) : (hexVal c).isSome = true ↔ c ∈ b!"0123456789abcdefABCDEF" := by
  have hc := UInt8.toNat_lt c
  have := hexDigit_mem ⟨c.toNat, by simpa using hc⟩
  simpa only [UInt8.ofNat_toNat] using this

theorem hexOf_exists (x : Bytes) (n : Nat) (hl : x.length = 2 * n) (h : ∀ c ∈ x, (hexVal c).isSome = true) :
    ∃ b, HexOf x b ∧ b.length = n := by
  induction n generalizing x with
  | zero =>
    have : x = [] := by simpa using hl
    subst this
    exact ⟨[], .nil, rfl⟩
  | succ n ih =>
    match x, hl with
    | [], hl => simp at hl
    | [_], hl => simp at hl; omega
    | a :: c :: x, hl =>
      obtain ⟨b, hb, hn⟩ := ih x (by simp at hl; omega) fun y hy => h y (by simp [hy])
      obtain ⟨u, hu⟩ := Option.isSome_iff_exists.1 (h a (by simp))
      obtain ⟨v, hv⟩ := Option.isSome_iff_exists.1 (h c (by simp))
      exact ⟨_, .cons ((hexVal_iff _ _).1 hu) ((hexVal_iff _ _).1 hv) hb, by simp [hn]⟩

/-- Well-formed references are the strings of 40 hexadecimal digits. -/
theorem ref_iff (x : Bytes) : (∃ sha, Ref x sha) ↔ Is40Hex x := by
  constructor
  · rintro ⟨sha, h, hl⟩
    refine ⟨by rw [hexOf_length h, hl], ?_⟩
    clear hl
    induction h with
    | nil => simp
    | cons h1 h2 _ ih =>
      intro c hc
      simp only [List.mem_cons] at hc
      rcases hc with rfl | rfl | hc
      · exact (hexVal_mem _).1 (by rw [(hexVal_iff _ _).2 h1]; rfl)
      · exact (hexVal_mem _).1 (by rw [(hexVal_iff _ _).2 h2]; rfl)
      · exact ih c hc
  · rintro ⟨hl, hd⟩
    obtain ⟨b, hb, hn⟩ := hexOf_exists x 20 (by omega) fun c hc => (hexVal_mem c).2 (hd c hc)
    exact ⟨b, hb, hn⟩

/-- A line is read whole, or a first fragment of it that fills the buffer is. -/
theorem readLine_word (w x T : Bytes) (e : Err) (N : Nat) (hN : 4096 ≤ N) (hw : w.length ≤ 16) (hne : w ≠ [])
    (hlf : LF ∉ w ++ x) (hT : T = [] ∨ (T.head? = some LF ∧ (w ++ x).getLast? ≠ some CR)) :
    ∃ y s', Stream.readLine ⟨w ++ x ++ T, e, N⟩ = .ok (w ++ y, s') ∧ s'.bufsz = N ∧ (y = x ∨ 40 < y.length) := by
  by_cases hs : (w ++ x).length < N
  · rcases hT with rfl | ⟨hT, hcr⟩
    · refine ⟨x, ⟨[], e, N⟩, ?_, rfl, Or.inl rfl⟩
      rw [List.append_nil]
      exact Stream.readLine_last e (by simp [hne]) hlf hs
    · cases T with
      | nil => simp at hT
      | cons c T =>
        simp only [List.head?_cons, Option.some.injEq] at hT
        subst hT
        exact ⟨x, ⟨T, e, N⟩, Stream.readLine_line T e ⟨hlf, hcr, hs⟩, rfl, Or.inl rfl⟩
  · have hlen : N ≤ (w ++ x ++ T).length := by rw [List.length_append]; omega
    have htake : (w ++ x ++ T).take N = w ++ x.take (N - w.length) := by
      rw [List.take_append_of_le_length (by omega), List.take_append, List.take_of_length_le (by omega)]
    have hno : splitAt LF ((w ++ x ++ T).take N) = none := by
      rw [splitAt_none, htake]
      intro h
      apply hlf
      rcases List.mem_append.1 h with h | h
      · exact List.mem_append_left _ h
      · exact List.mem_append_right _ (List.mem_of_mem_take h)
    have hcons : ∃ c cs, w ++ x ++ T = c :: cs := by
      cases w with
      | nil => exact absurd rfl hne
      | cons c w => exact ⟨c, _, rfl⟩
    obtain ⟨c, cs, hcs⟩ := hcons
    have hxl : N - w.length ≤ x.length := by
      simp only [List.length_append] at hs; omega
    have htl : (x.take (N - w.length)).length = N - w.length := by rw [List.length_take]; omega
    unfold Stream.readLine
    simp only [hcs]
    rw [← hcs, hno]
    simp only
    rw [if_pos hlen, htake]
    split
    · refine ⟨(x.take (N - w.length)).dropLast, ⟨(w ++ x ++ T).drop (N - 1), e, N⟩, ?_, rfl, Or.inr ?_⟩
      · rw [List.dropLast_append_of_ne_nil]
        intro h; rw [h] at htl; simp at htl; omega
      · rw [List.length_dropLast, htl]; omega
    · exact ⟨x.take (N - w.length), ⟨(w ++ x ++ T).drop N, e, N⟩, rfl, rfl, Or.inr (by rw [htl]; omega)⟩

theorem badRef_decode {x y : Bytes} (hx : ¬ Is40Hex x) (hy : y = x ∨ 40 < y.length) :
    hexDecode y = .err .badHex ∨ ∃ sha, hexDecode y = .ok sha ∧ shaToCid sha = .err .badSha := by
  have hnr : ∀ sha, ¬ Ref y sha := by
    intro sha h
    rcases hy with rfl | hy
    · exact hx ((ref_iff _).1 ⟨sha, h⟩)
    · have := hexOf_length h.1; have := h.2; omega
  cases h : hexDecode y with
  | ok sha =>
    refine Or.inr ⟨sha, rfl, sha_to_link_rejects sha ?_⟩
    intro hl
    exact hnr sha ⟨(hexDecode_iff _ _).1 h, hl⟩
  | err e =>
    left
    clear hy hnr hx
    induction y using hexDecode.induct with
    | case1 => simp [hexDecode] at h
    | case2 => simp only [hexDecode] at h; exact h.symm ▸ rfl
    | case3 a c cs x y hy hx r hr ih => simp [hexDecode, hx, hy, hr] at h
    | case4 a c cs x y hx hy e' hr ih =>
      simp only [hexDecode, hx, hy, hr] at h
      simp only [Res.err.injEq] at h
      exact ih (by rw [hr, h])
    | case5 a c cs x y hx hy hr ih => exact absurd hr (hexDecode_ne_panic _)
    | case6 a c cs hno => simp [hexDecode] at h; exact h.symm ▸ rfl
  | panic => exact absurd h (hexDecode_ne_panic _)

/-- A commit header whose reference is not exactly 40 hexadecimal digits makes
decoding fail, after any well-formed headers, whatever follows (`T` is empty or
starts with the line end), for references of any length. -/
theorem commit_bad_reference (N : Nat) (hN : 4096 ≤ N) (d : Bytes) (hd : SizeText d) (pre : List Item)
    (h : ItemsOk N pre) (w x T : Bytes) (e : Err)
    (hw : w = b!"tree " ∨ w = b!"parent " ∨ w = b!"mergetag object ")
    (hlf : LF ∉ x) (hT : T = [] ∨ (T.head? = some LF ∧ x.getLast? ≠ some CR)) (hx : ¬ Is40Hex x) :
    let r := parseObject (σ := Stream) ⟨b!"commit " ++ d ++ NUL :: (itemsText pre ++ (w ++ x ++ T)), e, N⟩
    r = .err .badHex ∨ r = .err .badSha := by
  have hN2 : 2 ≤ N := by omega
  have hw' : w.length ≤ 16 ∧ w ≠ [] ∧ LF ∉ w ∧ w.getLast? = some SP ∧ w.head? ≠ some SP := by
    rcases hw with rfl | rfl | rfl <;> decide
  have hT' : T = [] ∨ (T.head? = some LF ∧ (w ++ x).getLast? ≠ some CR) := by
    rcases hT with hT | ⟨h1, h2⟩
    · exact Or.inl hT
    · refine Or.inr ⟨h1, ?_⟩
      rw [List.getLast?_append]
      cases hxl : x.getLast? with
      | none => rw [hw'.2.2.2.1]; decide
      | some c => rw [hxl] at h2; simpa using h2
  obtain ⟨y, s', hr, hb, hy⟩ := readLine_word w x T e N hN hw'.1 hw'.2.1
    (by simp [hlf, hw'.2.2.1]) hT'
  have hhead : (w ++ y).head? ≠ some SP := by
    rw [List.head?_append]
    cases hh : w.head? with
    | none => simp [List.head?_eq_none_iff] at hh; exact absurd hh hw'.2.1
    | some c => rw [hh] at hw'; simpa using hw'.2.2.2.2
  simp only
  rw [parse_commit_size hd, commitRun_items pre _ _ _ N hN h ⟨w ++ y, s', hr, hhead⟩,
    commitRun_eq _ _ hN2, hr]
  simp only
  rw [commitLineRun_eq _ _ _ (by rw [hb]; exact hN2)]
  rcases hw with rfl | rfl | rfl
  · rw [if_pos (hasPrefix_append _ _), sliceFrom_append b!"tree " _ 5 rfl]
    rcases badRef_decode hx hy with hy | ⟨sha, h1, h2⟩
    · left; simp [hy]
    · right; simp [h1, h2]
  · rw [if_neg (by simp [hasPrefix, List.isPrefixOf]), if_pos (hasPrefix_append _ _),
      sliceFrom_append b!"parent " _ 7 rfl]
    rcases badRef_decode hx hy with hy | ⟨sha, h1, h2⟩
    · left; simp [hy]
    · right; simp [h1, h2]
  · rw [if_neg (by simp [hasPrefix, List.isPrefixOf]), if_neg (by simp [hasPrefix, List.isPrefixOf]),
      if_neg (by simp [hasPrefix, List.isPrefixOf]), if_neg (by simp [hasPrefix, List.isPrefixOf]),
      if_neg (by simp [hasPrefix, List.isPrefixOf]), if_pos (hasPrefix_append _ _),
      sliceFrom_append b!"mergetag object " _ 16 rfl]
    rcases badRef_decode hx hy with hy | ⟨sha, h1, h2⟩
    · left; simp [hy]
    · right; simp [h1, readMergeTag_eq, h2]

example : ¬ Is40Hex (List.replicate 39 97) ∧ ¬ Is40Hex (List.replicate 64 97) ∧
    ¬ Is40Hex (List.replicate 40 103) ∧ Is40Hex (List.replicate 40 70) := by
  refine ⟨fun h => absurd h.1 (by decide), fun h => absurd h.1 (by decide), fun h => absurd (h.2 103 ?_) (by decide),
    by decide, by decide⟩
  decide

/-- The same for the target of a tag object. -/
theorem tag_bad_reference (N : Nat) (hN : 4096 ≤ N) (d : Bytes) (hd : NUL ∉ d) (pre : List TagItem)
    (h : ∀ i ∈ pre, i.Ok N) (x T : Bytes) (e : Err)
    (hlf : LF ∉ x) (hT : T = [] ∨ (T.head? = some LF ∧ x.getLast? ≠ some CR)) (hx : ¬ Is40Hex x) :
    let r := parseObject (σ := Stream) ⟨b!"tag " ++ d ++ NUL :: (tagItemsText pre ++ (b!"object " ++ x ++ T)), e, N⟩
    r = .err .badHex ∨ r = .err .badSha := by
  have hN2 : 2 ≤ N := by omega
  have hT' : T = [] ∨ (T.head? = some LF ∧ (b!"object " ++ x).getLast? ≠ some CR) := by
    rcases hT with hT | ⟨h1, h2⟩
    · exact Or.inl hT
    · refine Or.inr ⟨h1, ?_⟩
      rw [List.getLast?_append]
      cases hxl : x.getLast? with
      | none => decide
      | some c => rw [hxl] at h2; simpa using h2
  obtain ⟨y, s', hr, hb, hy⟩ := readLine_word b!"object " x T e N hN (by decide) (by decide)
    (by rw [List.mem_append]; exact fun h => h.elim (by decide) hlf) hT'
  simp only
  rw [parse_tag_nul _ _ _ _ hd, tagRun_items pre _ _ _ N hN h, tagRun_eq _ _ hN2, hr]
  simp only
  unfold tagLine
  rw [if_pos (hasPrefix_append _ _), sliceFrom_append b!"object " _ 7 rfl]
  rcases badRef_decode hx hy with hy | ⟨sha, h1, h2⟩
  · left; simp [hy]
  · right; simp [h1, h2]

/-! ## C43 Decoding invents nothing -/

/-- Every value of a decoded object stands in the stream: what is not missing is
exactly the bytes behind its header word (hexadecimal for links; emails may have
lost `<` characters; signatures and merge tag messages are sequences of lines of
the stream with LF ends; messages are the end of the stream). -/
theorem decoded_from_stream (s : Stream) (hN : 2 ≤ s.bufsz) (o : Obj) (h : parseObject s = .ok o) :
    match o with
    | .blob b => ∃ d content, Canonical d content.length ∧ b = b!"blob " ++ d ++ NUL :: content ∧ content <:+: s.rest
    | .tree t => ∀ r ∈ t.t, ∃ e : Entry, EntryOk e ∧ r = e.row ∧ e.text <:+: s.rest
    | .commit c => CommitFrom s.rest c
    | .tag t => PlainTagFrom s.rest t := by
  cases o with
  | blob b =>
    obtain ⟨d, content, rest, h1, h2, ⟨d', hd', hf⟩, _⟩ := blob_canonical s b h
    refine ⟨d', content, hd', by rw [hf]; simp, ?_⟩
    rw [h1]
    exact ⟨b!"blob " ++ d ++ [NUL], rest, by simp⟩
  | tree t =>
    obtain ⟨d, z, es, tail, h1, _, h3, h4, _⟩ := tree_decoded s t h
    intro r hr
    rw [h4] at hr
    obtain ⟨e, he, rfl⟩ := List.mem_map.1 hr
    refine ⟨e, h3.each e he, rfl, ?_⟩
    rw [h1]
    obtain ⟨a, b, rfl⟩ := List.append_of_mem he
    exact ⟨b!"tree " ++ d ++ NUL :: treeBody a, treeBody b ++ tail, by simp [treeBody]⟩
  | commit c =>
    rcases parse_inv_ok s _ h with ⟨_, _, _, _, _, _, h⟩ | ⟨c', s', hr, hf, hb, hd, hc⟩ |
      ⟨_, _, _, _, _, _, h⟩ | ⟨_, _, _, _, _, _, h⟩
    · simp at h
    · simp only [Obj.commit.injEq] at hc
      subst hc
      rw [decodeCommit_eq] at hd
      obtain ⟨⟨z, s1⟩, h1, hd⟩ := Res.bind_eq_ok.1 hd
      have hlt := readNum_lt _ _ _ h1
      refine commitRun_from s.rest _ _ s1 (by rw [hlt.bufsz, hb]; exact hN) ?_ ?_ hd
      · refine hlt.suf.trans ?_
        rw [hr]
        exact ⟨b!"commit ", by simp⟩
      · exact ⟨Or.inl rfl, by simp [Commit.zero], by simp [Commit.zero], by simp [Commit.zero],
          by simp [Commit.zero], by simp [Commit.zero], by simp [Commit.zero], by simp [Commit.zero], Or.inl rfl⟩
    · simp at h
    · simp at h
  | tag t =>
    rcases parse_inv_ok s _ h with ⟨_, _, _, _, _, _, h⟩ | ⟨_, _, _, _, _, _, h⟩ |
      ⟨_, _, _, _, _, _, h⟩ | ⟨t', s', hr, hf, hb, hd, hc⟩
    · simp at h
    · simp at h
    · simp at h
    · simp only [Obj.tag.injEq] at hc
      subst hc
      rw [decodeTag_eq] at hd
      obtain ⟨⟨z, s1⟩, h1, hd⟩ := Res.bind_eq_ok.1 hd
      have hlt := Stream.readString_lt _ _ _ _ h1
      refine tagRun_from s.rest _ _ s1 (by rw [hlt.bufsz, hb]; exact hN) ?_ ?_ hd
      · refine hlt.suf.trans ?_
        rw [hr]
        exact ⟨b!"tag ", by simp⟩
      · exact { typ := Or.inl rfl, tag := Or.inl rfl, tagger := Or.inl rfl, object := Or.inl rfl,
                message := Or.inl rfl }

example : ∃ o, parseObject (σ := Stream)
    ⟨b!"tag 9\x00object 0123456789012345678901234567890123456789\ntagger A B <<a@b c> 12 +3\n\nx", .eof, 4096⟩ = .ok o :=
  ⟨.tag { object := gitLink [1, 35, 69, 103, 137, 1, 35, 69, 103, 137, 1, 35, 69, 103, 137, 1, 35, 69, 103, 137],
          typ := [], tag := [], tagger := ⟨b!"A B", b!"<a@b c", b!"12", b!"+3"⟩, message := b!"x" }, by decide +kernel⟩

/-! ## C16 Every decoded link names a git object -/

/-- The links of a node that are not lists or tables of links: they are nil when
the header is missing. -/
def headLinks : Obj → List Link
  | .commit c => [c.tree]
  | .tag t => [t.object]
  | _ => []

/-- The other links of a node. -/
def listLinks : Obj → List Link
  | .blob _ => []
  | .tree t => t.t.map (·.2.hash)
  | .commit c => c.parents ++ c.mergetag.map (·.object)
  | .tag _ => []

/-- Every link of a decoded object is a CIDv1 with codec git-raw and a 20-byte
sha1 multihash whose digest stood in the stream, raw (trees) or in hexadecimal
(commits and tags). Only the tree of a commit and the target of a tag can be
missing. -/
theorem decoded_links (s : Stream) (hN : 2 ≤ s.bufsz) (o : Obj) (h : parseObject s = .ok o) :
    (∀ l ∈ listLinks o ++ headLinks o, (l ∈ headLinks o ∧ l = .nil) ∨
      ∃ sha, sha.length = 20 ∧ l = .cid { version := 1, codec := 0x78, hash := 0x11 :: 0x14 :: sha } ∧
        (sha <:+: s.rest ∨ ∃ x, HexOf x sha ∧ x <:+: s.rest)) ∧
    (∀ l ∈ listLinks o, l ≠ .nil) := by
  have hfrom := decoded_from_stream s hN o h
  have key : ∀ w l, LinkFrom s.rest w l → l = .nil ∨
      ∃ sha, sha.length = 20 ∧ l = .cid { version := 1, codec := 0x78, hash := 0x11 :: 0x14 :: sha } ∧
        (sha <:+: s.rest ∨ ∃ x, HexOf x sha ∧ x <:+: s.rest) := by
    rintro w l (h | ⟨x, sha, hr, rfl, hin⟩)
    · exact Or.inl h
    · exact Or.inr ⟨sha, hr.2, rfl, Or.inr ⟨x, hr.1, (List.suffix_append _ _).isInfix.trans hin⟩⟩
  have nz : ∀ l, IsGitLink l → l ≠ .nil := by rintro l ⟨sha, _, rfl⟩; simp [gitLink]
  cases o with
  | blob b => simp [listLinks, headLinks]
  | tree t =>
    simp only [listLinks, headLinks, List.append_nil, List.mem_map, List.not_mem_nil, false_and, false_or]
    refine ⟨?_, ?_⟩
    · rintro l ⟨r, hr, rfl⟩
      obtain ⟨e, he, rfl, hin⟩ := hfrom r hr
      refine ⟨e.sha, he.sha, rfl, Or.inl (List.IsInfix.trans ?_ hin)⟩
      exact ⟨e.mode ++ SP :: (e.name ++ [NUL]), [], by simp [Entry.text]⟩
    · rintro l ⟨r, hr, rfl⟩
      obtain ⟨e, he, rfl, hin⟩ := hfrom r hr
      simp [Entry.row, gitLink]
  | commit c =>
    have hc : CommitFrom s.rest c := hfrom
    simp only [listLinks, headLinks, List.mem_append, List.mem_map, List.mem_singleton]
    refine ⟨?_, ?_⟩
    · rintro l ((hl | ⟨t, ht, rfl⟩) | rfl)
      · have := hc.parents l hl
        exact (key _ _ this.2).elim (fun h => absurd h (nz _ this.1)) Or.inr
      · have := (hc.mergetag t ht).object
        exact (key _ _ this.2).elim (fun h => absurd h (nz _ this.1)) Or.inr
      · exact (key _ _ hc.tree).elim (fun h => Or.inl ⟨rfl, h⟩) Or.inr
    · rintro l (hl | ⟨t, ht, rfl⟩)
      · exact nz _ (hc.parents l hl).1
      · exact nz _ (hc.mergetag t ht).object.1
  | tag t =>
    have hc : PlainTagFrom s.rest t := hfrom
    simp only [listLinks, headLinks, List.mem_append, List.not_mem_nil, List.mem_singleton, false_or]
    refine ⟨?_, by simp⟩
    rintro l rfl
    exact (key _ _ hc.object).elim (fun h => Or.inl ⟨rfl, h⟩) Or.inr

/-- The exception is real: objects without these headers are accepted. -/
theorem decoded_link_missing :
    parseObject (σ := Stream) ⟨b!"commit 0\x00", .eof, 4096⟩ = .ok (.commit noCommit) ∧
    parseObject (σ := Stream) ⟨b!"tag 0\x00", .eof, 4096⟩ = .ok (.tag noTag) := by
  decide

example : ∃ o, parseObject (σ := Stream)
    ⟨b!"commit 9\x00parent 0123456789ABCDEF012345678901234567890123\n", .eof, 4096⟩ = .ok o :=
  ⟨.commit { noCommit with parents := [gitLink [1, 35, 69, 103, 137, 171, 205, 239, 1, 35, 69, 103, 137, 1, 35, 69, 103, 137, 1, 35]] }, by decide +kernel⟩

end Verif.Props
