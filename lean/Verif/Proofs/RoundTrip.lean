import Verif.Proofs.Clean
import Verif.Model.Encode
import Verif.Spec.Objects

/-!
# Decoding what was encoded
-/

namespace Verif

open Spec

/-! ## pieces -/

theorem gitLink_eq (sha : Bytes) : gitLink sha = .cid (gitCid sha) := rfl

theorem digest_gitLink (sha : Bytes) : digest (gitLink sha) = sha := rfl

theorem hexDigit_getD : ∀ n : Fin 16, b!"0123456789abcdef".getD n.val 0 = hexDigit n.val := by decide

theorem hex_eq (b : Bytes) : hex b = hexEncode b := by
  unfold hex hexEncode
  congr 1
  funext c
  have hc : c.toNat < 256 := by simpa using UInt8.toNat_lt c
  have h1 := hexDigit_getD ⟨c.toNat / 16, by omega⟩
  have h2 := hexDigit_getD ⟨c.toNat % 16, by omega⟩
  simp only at h1 h2
  rw [h1, h2]

theorem personText_eq (p : PersonInfo) : personText p = gitString p := by
  unfold personText gitString
  by_cases hd : p.date = [] <;> by_cases ht : p.timezone = [] <;> simp [hd, ht]

theorem linkSha_git {l : Link} (h : IsGitLink l) : linkSha l = .ok (digest l) := by
  obtain ⟨sha, hl, rfl⟩ := h
  exact linkSha_gitCid sha hl

theorem digest_length {l : Link} (h : IsGitLink l) : (digest l).length = 20 := by
  obtain ⟨sha, hl, rfl⟩ := h; exact hl

theorem gitLink_digest {l : Link} (h : IsGitLink l) : .cid (gitCid (digest l)) = l := by
  obtain ⟨sha, hl, rfl⟩ := h; rfl

theorem framed_decimal {word body out : Bytes} (h : Framed word body out) :
    out = word ++ SP :: (decimal body.length ++ NUL :: body) := by
  obtain ⟨d, hd, rfl⟩ := h
  rw [canonical_unique d (decimal body.length) _ hd (decimal_canonical _)]

theorem framed_withHeader (word body : Bytes) : Framed word body (withHeader word body) :=
  ⟨decimal body.length, decimal_canonical _, by simp [withHeader]⟩

theorem framed_eq {word body out : Bytes} (h : Framed word body out) :
    out = withHeader word body := by
  rw [framed_decimal h]; simp [withHeader]

theorem readNum_decimal (n : Nat) (r : Bytes) (e : Err) (N : Nat) (h : n < 2 ^ 63) :
    readNum (σ := Stream) ⟨decimal n ++ NUL :: r, e, N⟩ = .ok ((n : Int), ⟨r, e, N⟩) := by
  rw [readNum_stream _ _ _ _ (nul_notin_decimal n), atoi_decimal n h]
  rfl

theorem unlines_cons (l : Bytes) (ls : List Bytes) (r : Bytes) :
    unlines (l :: ls) ++ r = l ++ LF :: (unlines ls ++ r) := by
  simp [unlines]

@[simp] theorem unlines_nil : unlines [] = [] := rfl

theorem hexDigit_char (c : UInt8) (v : Nat) (h : HexDigit c v) : 48 ≤ c.toNat := by
  rcases h with h | h
  · exact (by decide : ∀ c ∈ b!"0123456789abcdef", 48 ≤ c.toNat) c (List.mem_of_getElem? h)
  · exact (by decide : ∀ c ∈ b!"0123456789ABCDEF", 48 ≤ c.toNat) c (List.mem_of_getElem? h)

theorem hexOf_ge {h b : Bytes} (hh : HexOf h b) : ∀ c ∈ h, 48 ≤ c.toNat := by
  induction hh with
  | nil => simp
  | cons h1 h2 _ ih =>
    intro c hc
    rcases List.mem_cons.1 hc with rfl | hc
    · exact hexDigit_char _ _ h1
    · rcases List.mem_cons.1 hc with rfl | hc
      · exact hexDigit_char _ _ h2
      · exact ih c hc

/-- A line `prefix ++ reference` is a proper header line. -/
theorem headerLine_ref (N : Nat) (p h sha : Bytes) (hp : LF ∉ p) (hr : Ref h sha)
    (hN : p.length + 40 < N) : HeaderLine N (p ++ h) := by
  have hh := hexOf_ge hr.1
  have hlen : h.length = 40 := by rw [hexOf_length hr.1, hr.2]
  refine ⟨?_, ?_, by simp [hlen]; omega⟩
  · intro h0
    rcases List.mem_append.1 h0 with h0 | h0
    · exact hp h0
    · have := hh _ h0; revert this; decide
  · intro h0
    rw [List.getLast?_append] at h0
    have hne : h ≠ [] := by intro h1; rw [h1] at hlen; simp at hlen
    rw [List.getLast?_eq_some_getLast hne] at h0
    simp only [Option.some_or, Option.some.injEq] at h0
    have := hh _ (List.getLast_mem hne)
    rw [h0] at this
    revert this; decide

theorem ref_hex (sha : Bytes) (h : sha.length = 20) : Ref (hex sha) sha := by
  refine ⟨?_, h⟩
  rw [hex_eq]
  exact (hexDecode_iff _ _).1 (hexDecode_hexEncode sha)

/-- Decoding a reference after a prefix. -/
theorem ref_line {α : Type} (p h sha : Bytes) (n : Nat) (hn : n = p.length) (hr : Ref h sha)
    (f : Cid → Res α) :
    (do
      let h ← sliceFrom (p ++ h) n
      let sha ← hexDecode h
      let cid ← shaToCid sha
      f cid) = f (gitCid sha) := by
  rw [sliceFrom_append p _ n hn]
  simp [(hexDecode_iff _ _).2 hr.1, shaToCid_ok sha hr.2]

/-- A line `prefix ++ hex sha` is a proper header line. -/
theorem headerLine_hex (N : Nat) (p sha : Bytes) (hp : LF ∉ p) (hs : sha.length = 20)
    (hN : p.length + 40 < N) : HeaderLine N (p ++ hex sha) :=
  headerLine_ref N p _ sha hp (ref_hex sha hs) hN

/-! ## blob -/

theorem decodeBlob_framed (content rest : Bytes) (e : Err) (N : Nat) (h : content.length < 2 ^ 63) :
    decodeBlob (σ := Stream) ⟨decimal content.length ++ NUL :: (content ++ rest), e, N⟩ =
      .ok (b!"blob " ++ decimal content.length ++ NUL :: content) := by
  unfold decodeBlob
  rw [readNum_decimal _ _ _ _ h]
  simp only [Res.bind_ok, reader_readLimited, Stream.readLimited]
  rw [if_neg (by omega), if_pos (by simp)]
  simp

/-! ## tree -/

theorem mapGet_mapSet (m : List (Bytes × TreeEntry)) (k k' : Bytes) (v : TreeEntry) :
    mapGet (mapSet m k v) k' = if k' = k then some v else mapGet m k' := by
  unfold mapSet
  simp only [mapGet]
  by_cases hk : k = k'
  · subst hk; simp
  · rw [if_neg hk, if_neg (Ne.symm hk)]
    induction m with
    | nil => rfl
    | cons p m ih =>
      obtain ⟨a, b⟩ := p
      simp only [List.filter]
      simp only [ne_eq, decide_not] at ih
      by_cases ha : a = k
      · subst ha; simp [mapGet, hk, ih]
      · simp [mapGet, ha, ih]

theorem decodeTreeEntry_text (e : Entry) (r : Bytes) (er : Err) (N : Nat) (h : EntryOk e) :
    decodeTreeEntry (σ := Stream) ⟨e.text ++ r, er, N⟩ = .ok (e.row, ⟨r, er, N⟩) := by
  have h1 : e.text ++ r = e.mode ++ SP :: (e.name ++ NUL :: (e.sha ++ r)) := by simp [Entry.text]
  unfold decodeTreeEntry
  simp only [reader_readString, reader_readFull]
  rw [h1, Stream.readString_delim _ _ _ _ _ h.mode]
  simp only [Res.bind_ok, chop_concat]
  rw [Stream.readString_delim _ _ _ _ _ h.name]
  simp only [Res.bind_ok, chop_concat, Stream.readFull]
  rw [if_pos (by simp [h.sha])]
  have htake : (e.sha ++ r).take 20 = e.sha := by simp [← h.sha]
  have hdrop : (e.sha ++ r).drop 20 = r := by simp [← h.sha]
  simp only [Res.bind_ok, htake, hdrop, shaToCid_ok _ h.sha]
  rfl

/-- The tree after adding rows one by one. -/
def addRows (t : Tree) : List (Bytes × TreeEntry) → Tree
  | [] => t
  | (n, e) :: r => addRows { m := mapSet t.m n e, t := t.t ++ [(n, e)] } r

theorem addRows_t (t : Tree) (rs : List (Bytes × TreeEntry)) : (addRows t rs).t = t.t ++ rs := by
  induction rs generalizing t with
  | nil => simp [addRows]
  | cons r rs ih => obtain ⟨n, e⟩ := r; simp [addRows, ih]

/-- The map is the lookup function of the table, and names are distinct. -/
structure TreeInv (t : Tree) : Prop where
  lookup : ∀ k, mapGet t.m k = (t.t.find? (fun r => r.1 = k)).map (·.2)
  nodup : (t.t.map (·.1)).Nodup

theorem treeInv_empty : TreeInv { m := [], t := [] } := ⟨by simp [mapGet], by simp⟩

theorem treeInv_add (t : Tree) (n : Bytes) (e : TreeEntry) (h : TreeInv t)
    (hn : mapGet t.m n = none) : TreeInv { m := mapSet t.m n e, t := t.t ++ [(n, e)] } := by
  have hnm : t.t.find? (fun r => r.1 = n) = none := by
    have := h.lookup n
    rw [hn] at this
    simpa using this.symm
  constructor
  · intro k
    rw [mapGet_mapSet, List.find?_append]
    by_cases hk : k = n
    · subst hk; simp [hnm]
    · rw [if_neg hk, h.lookup k]
      simp [Ne.symm hk]
  · rw [List.map_append, List.nodup_append]
    refine ⟨h.nodup, by simp, ?_⟩
    intro a ha b hb
    simp only [List.map_cons, List.map_nil, List.mem_singleton] at hb
    subst hb
    rintro rfl
    rw [List.mem_map] at ha
    obtain ⟨r, hr, rfl⟩ := ha
    have := List.find?_eq_none.1 hnm r hr
    simp at this

theorem treeAdd_ok (t t' : Tree) (n : Bytes) (e : TreeEntry) (h : treeAdd t n e = .ok t') :
    mapGet t.m n = none ∧ t' = { m := mapSet t.m n e, t := t.t ++ [(n, e)] } := by
  unfold treeAdd at h
  split at h
  · simp at h
  · rename_i hn
    simp only [Res.ok.injEq] at h
    exact ⟨hn, h.symm⟩

theorem mapGet_none_of (t : Tree) (h : TreeInv t) (n : Bytes) (hn : n ∉ t.t.map (·.1)) :
    mapGet t.m n = none := by
  rw [h.lookup, Option.map_eq_none_iff, List.find?_eq_none]
  intro r hr
  simp only [decide_eq_true_eq]
  rintro rfl
  exact hn (List.mem_map.2 ⟨r, hr, rfl⟩)

theorem treeRun_entries (es : List Entry) (t : Tree) (N : Nat) (hes : ∀ e ∈ es, EntryOk e)
    (ht : TreeInv t) (hd : (t.t.map (·.1) ++ es.map (·.name)).Nodup) (r : Bytes) (er : Err) :
    treeRun t ⟨treeBody es ++ r, er, N⟩ = treeRun (addRows t (es.map Entry.row)) ⟨r, er, N⟩ := by
  induction es generalizing t with
  | nil => simp [treeBody, addRows]
  | cons e es ih =>
    have hb : treeBody (e :: es) ++ r = e.text ++ (treeBody es ++ r) := by simp [treeBody]
    rw [hb, treeRun_eq, decodeTreeEntry_text _ _ _ _ (hes e (by simp))]
    simp only [Entry.row]
    have hnone : mapGet t.m e.name = none := by
      apply mapGet_none_of t ht
      intro hm
      rw [List.nodup_append] at hd
      exact hd.2.2 _ hm _ (by simp) rfl
    have hadd : treeAdd t e.name { mode := e.mode, hash := gitLink e.sha } =
        .ok { m := mapSet t.m e.name { mode := e.mode, hash := gitLink e.sha },
              t := t.t ++ [(e.name, { mode := e.mode, hash := gitLink e.sha })] } := by
      simp [treeAdd, hnone]
    rw [hadd, Res.bind_ok]
    rw [ih _ (fun x hx => hes x (by simp [hx])) (treeInv_add t _ _ ht hnone)]
    · rfl
    · simpa using hd

theorem addRows_inv (t : Tree) (rs : List (Bytes × TreeEntry)) (ht : TreeInv t)
    (hd : (t.t.map (·.1) ++ rs.map (·.1)).Nodup) : TreeInv (addRows t rs) := by
  induction rs generalizing t with
  | nil => exact ht
  | cons r rs ih =>
    obtain ⟨n, e⟩ := r
    have hnone : mapGet t.m n = none := by
      apply mapGet_none_of t ht
      intro hm
      rw [List.nodup_append] at hd
      exact hd.2.2 _ hm _ (by simp) rfl
    exact ih _ (treeInv_add t n e ht hnone) (by simpa using hd)

/-- The tree that decoding a list of entries builds. -/
def treeOf (es : List Entry) : Tree := addRows { m := [], t := [] } (es.map Entry.row)

theorem treeOf_t (es : List Entry) : (treeOf es).t = es.map Entry.row := by
  simp [treeOf, addRows_t]

theorem treeRun_nil (t : Tree) (N : Nat) : treeRun t ⟨[], .eof, N⟩ = .ok t := by
  rw [treeRun_eq]
  simp [decodeTreeEntry, Stream.readString, splitAt]

theorem encTreeEntries_rows (es : List Entry) (hes : ∀ e ∈ es, EntryOk e) :
    encTreeEntries (es.map Entry.row) = .ok (treeBody es) := by
  induction es with
  | nil => rfl
  | cons e es ih =>
    have he := hes e (by simp)
    rw [List.map_cons]
    have he' : encTreeEntry e.name { mode := e.mode, hash := gitLink e.sha } = .ok e.text := by
      simp only [encTreeEntry, gitLink_eq, cidToSha_gitCid _ he.sha, Res.bind_ok]
      simp [Entry.text]
    show (encTreeEntry e.name { mode := e.mode, hash := gitLink e.sha } >>= fun a =>
      encTreeEntries (es.map Entry.row) >>= fun b => Res.ok (a ++ b)) = _
    rw [he', ih (fun x hx => hes x (by simp [hx]))]
    rfl

theorem decodeTree_body (es : List Entry) (N : Nat) (h : EntriesOk es) (n : Nat) (hn : n < 2 ^ 63) :
    decodeTree (σ := Stream) ⟨decimal n ++ NUL :: treeBody es, .eof, N⟩ = .ok (treeOf es) := by
  rw [decodeTree_eq, readNum_decimal _ _ _ _ hn]
  simp only [Res.bind_ok]
  have := treeRun_entries es { m := [], t := [] } N h.each treeInv_empty (by simpa using h.distinct) [] .eof
  rw [List.append_nil] at this
  rw [this, treeRun_nil]
  rfl

/-! ## persons on lines -/

theorem person_line (w : Bytes) (p : PersonInfo) (hw : SP ∉ w) (h : PersonOk p) :
    parsePersonInfo (w ++ SP :: personText p) = .ok p := by
  rw [personText_eq]; exact parse_gitString w p hw h

/-! ## tag -/

theorem tagRun_line (t : Tag) (l r : Bytes) (e : Err) (N : Nat) (hN : 2 ≤ N) (hl : HeaderLine N l) :
    tagRun t ⟨l ++ LF :: r, e, N⟩ = tagLine t l ⟨r, e, N⟩ >>= fun p => tagRun p.1 p.2 := by
  rw [tagRun_eq _ _ hN, Stream.readLine_line r e hl]

theorem tagRun_nil (t : Tag) (N : Nat) (hN : 2 ≤ N) : tagRun t ⟨[], .eof, N⟩ = .ok t := by
  rw [tagRun_eq _ _ hN]; rfl

theorem headerLine_nil (N : Nat) (h : 0 < N) : HeaderLine N [] := ⟨by simp, by simp, by simpa⟩

theorem tagRun_body (t : Tag) (N : Nat) (hN : 4096 ≤ N) (h : TagOk N t) :
    tagRun Tag.zero ⟨tagBody t, .eof, N⟩ = .ok t := by
  have hN2 : 2 ≤ N := by omega
  have hd := digest_length h.object
  unfold tagBody
  simp only [unlines_cons, unlines_nil, List.nil_append]
  -- object
  rw [tagRun_line _ _ _ _ _ hN2 (headerLine_hex N _ _ (by decide) hd (by simp; omega))]
  have h1 : ∀ (o : Tag) (s : Stream), tagLine o (b!"object " ++ hex (digest t.object)) s =
      .ok ({ o with object := .cid (gitCid (digest t.object)) }, s) := by
    intro o s
    unfold tagLine
    rw [if_pos (hasPrefix_append _ _)]
    exact ref_line b!"object " _ _ 7 rfl (ref_hex _ hd) _
  rw [h1]
  simp only [Res.bind_ok]
  -- type
  rw [tagRun_line _ _ _ _ _ hN2 h.typ]
  have h2 : ∀ (o : Tag) (s : Stream), tagLine o (b!"type " ++ t.typ) s = .ok ({ o with typ := t.typ }, s) := by
    intro o s
    unfold tagLine
    simp [hasPrefix, List.isPrefixOf, sliceFrom]
  rw [h2]
  simp only [Res.bind_ok]
  -- tag
  rw [tagRun_line _ _ _ _ _ hN2 h.tag]
  have h3 : ∀ (o : Tag) (s : Stream), tagLine o (b!"tag " ++ t.tag) s = .ok ({ o with tag := t.tag }, s) := by
    intro o s
    unfold tagLine
    simp [hasPrefix, List.isPrefixOf, sliceFrom]
  rw [h3]
  simp only [Res.bind_ok]
  -- tagger
  rw [tagRun_line _ _ _ _ _ hN2 h.taggerLine]
  have h4 : ∀ (o : Tag) (s : Stream), tagLine o (b!"tagger " ++ personText t.tagger) s =
      .ok ({ o with tagger := t.tagger }, s) := by
    intro o s
    have hp := person_line b!"tagger" t.tagger (by decide) h.tagger
    have he : b!"tagger" ++ SP :: personText t.tagger = b!"tagger " ++ personText t.tagger := rfl
    rw [he] at hp
    unfold tagLine
    rw [hp]
    simp [hasPrefix, List.isPrefixOf]
  rw [h4]
  simp only [Res.bind_ok]
  -- message
  have hnl := fun (o : Tag) => tagRun_line o [] t.message .eof N hN2 (headerLine_nil N (by omega))
  simp only [List.nil_append] at hnl
  rw [hnl]
  have h5 : ∀ (o : Tag), tagLine (σ := Stream) o [] ⟨t.message, .eof, N⟩ =
      .ok ({ o with message := t.message }, ⟨[], .eof, N⟩) := by
    intro o; rfl
  rw [h5]
  simp only [Res.bind_ok]
  rw [tagRun_nil _ _ hN2, gitLink_digest h.object]

theorem encTag_eq (t : Tag) (ho : IsGitLink t.object) (hm : t.message ≠ []) :
    encTag t = .ok (withHeader b!"tag" (tagBody t)) := by
  unfold encTag
  rw [linkSha_git ho]
  simp [hm, tagBody, unlines, hex_eq, personText_eq]

/-! ## commit -/

theorem commitRun_line (c : Commit) (l r : Bytes) (e : Err) (N : Nat) (hN : 2 ≤ N)
    (hl : HeaderLine N l) :
    commitRun c ⟨l ++ LF :: r, e, N⟩ = commitLineRun c l ⟨r, e, N⟩ >>= fun p => commitRun p.1 p.2 := by
  rw [commitRun_eq _ _ hN, Stream.readLine_line r e hl]

theorem commitRun_nil (c : Commit) (N : Nat) (hN : 2 ≤ N) : commitRun c ⟨[], .eof, N⟩ = .ok c := by
  rw [commitRun_eq _ _ hN]; rfl

theorem commitLine_tree (c : Commit) (h sha : Bytes) (s : Stream) (hN : 2 ≤ s.bufsz)
    (hr : Ref h sha) :
    commitLineRun c (b!"tree " ++ h) s = .ok ({ c with tree := gitLink sha }, s) := by
  rw [commitLineRun_eq _ _ _ hN, if_pos (hasPrefix_append _ _)]
  exact ref_line b!"tree " _ _ 5 rfl hr _

theorem commitLine_parent (c : Commit) (h sha : Bytes) (s : Stream) (hN : 2 ≤ s.bufsz)
    (hr : Ref h sha) :
    commitLineRun c (b!"parent " ++ h) s =
      .ok ({ c with parents := c.parents ++ [gitLink sha] }, s) := by
  rw [commitLineRun_eq _ _ _ hN, if_neg (by simp [hasPrefix, List.isPrefixOf]), if_pos (hasPrefix_append _ _)]
  exact ref_line b!"parent " _ _ 7 rfl hr _

theorem commitLine_author (c : Commit) (p : PersonInfo) (s : Stream) (hN : 2 ≤ s.bufsz)
    (hp : PersonOk p) :
    commitLineRun c (b!"author " ++ personText p) s = .ok ({ c with author := some p }, s) := by
  have h := person_line b!"author" p (by decide) hp
  have he : b!"author" ++ SP :: personText p = b!"author " ++ personText p := rfl
  rw [he] at h
  rw [commitLineRun_eq _ _ _ hN, h]
  simp [hasPrefix, List.isPrefixOf]

theorem commitLine_committer (c : Commit) (p : PersonInfo) (s : Stream) (hN : 2 ≤ s.bufsz)
    (hp : PersonOk p) :
    commitLineRun c (b!"committer " ++ personText p) s = .ok ({ c with committer := some p }, s) := by
  have h := person_line b!"committer" p (by decide) hp
  have he : b!"committer" ++ SP :: personText p = b!"committer " ++ personText p := rfl
  rw [he] at h
  rw [commitLineRun_eq _ _ _ hN, h]
  simp [hasPrefix, List.isPrefixOf]

theorem commitLine_encoding (c : Commit) (x : Bytes) (s : Stream) (hN : 2 ≤ s.bufsz) :
    commitLineRun c (b!"encoding " ++ x) s = .ok ({ c with encoding := some x }, s) := by
  rw [commitLineRun_eq _ _ _ hN]
  simp [hasPrefix, List.isPrefixOf, sliceFrom]

theorem commitLine_other (c : Commit) (l : Bytes) (s : Stream) (hN : 2 ≤ s.bufsz) (hne : l ≠ [])
    (hk : ∀ p ∈ knownHeaders, ¬ p <+: l) :
    commitLineRun c l s = .ok ({ c with other := c.other ++ [l] }, s) := by
  have hp : ∀ p ∈ knownHeaders, ¬ (hasPrefix l p = true) := by
    intro p hp h
    unfold hasPrefix at h
    exact hk p hp (List.isPrefixOf_iff_prefix.1 h)
  rw [commitLineRun_eq _ _ _ hN]
  rw [if_neg (hp _ (by simp [knownHeaders])), if_neg (hp _ (by simp [knownHeaders])),
    if_neg (hp _ (by simp [knownHeaders])), if_neg (hp _ (by simp [knownHeaders])),
    if_neg (hp _ (by simp [knownHeaders])), if_neg (hp _ (by simp [knownHeaders])),
    if_neg (hp _ (by simp [knownHeaders])), if_neg (by simpa using hne)]

theorem commitRun_parents (ps : List Link) (c : Commit) (r : Bytes) (e : Err) (N : Nat)
    (hN : 4096 ≤ N) (h : ∀ p ∈ ps, IsGitLink p) :
    commitRun c ⟨unlines (ps.map fun p => b!"parent " ++ hex (digest p)) ++ r, e, N⟩ =
      commitRun { c with parents := c.parents ++ ps } ⟨r, e, N⟩ := by
  induction ps generalizing c with
  | nil => simp
  | cons p ps ih =>
    have hp := h p (by simp)
    have hd := digest_length hp
    rw [List.map_cons, unlines_cons,
      commitRun_line _ _ _ _ _ (by omega) (headerLine_hex N _ _ (by decide) hd (by simp; omega)),
      commitLine_parent _ _ _ _ (by simp; omega) (ref_hex _ hd), Res.bind_ok,
      ih _ (fun x hx => h x (by simp [hx]))]
    rw [gitLink_eq, gitLink_digest hp]
    simp

theorem mergeMsgRun_lines (ls : List Bytes) (m l T : Bytes) (s' : Stream) (e : Err) (N : Nat) (hN : 2 ≤ N)
    (hls : ∀ x ∈ ls, x.head? = some SP ∧ HeaderLine N x) (hl : Stream.readLine ⟨T, e, N⟩ = .ok (l, s'))
    (hsp : l.head? ≠ some SP) :
    mergeMsgRun m ⟨unlines ls ++ T, e, N⟩ = .ok ((m ++ unlines ls, l), s') := by
  induction ls generalizing m with
  | nil =>
    rw [unlines_nil, List.nil_append, mergeMsgRun_eq _ _ hN, hl]
    have : hasPrefix l b!" " = false := by
      cases l with
      | nil => rfl
      | cons c cs =>
        have : c ≠ SP := by simpa using hsp
        simp only [hasPrefix, List.isPrefixOf, Bool.and_true]; simpa using Ne.symm this
    simp [this]
  | cons x xs ih =>
    have hx := hls x (by simp)
    rw [unlines_cons, mergeMsgRun_eq _ _ hN, Stream.readLine_line _ e hx.2]
    have : hasPrefix x b!" " = true := by
      cases x with
      | nil => simp at hx
      | cons c cs =>
        have : c = SP := by simpa using hx.1
        simp [hasPrefix, this]
    simp only [this, not_true_eq_false, if_false]
    rw [ih _ (fun y hy => hls y (by simp [hy]))]
    simp [unlines]

theorem mergeTagRun_text (t o : Tag) (l T : Bytes) (s' : Stream) (e : Err) (N : Nat) (hN : 4096 ≤ N)
    (h : MergeTagOk N t) (hl : Stream.readLine ⟨T, e, N⟩ = .ok (l, s')) (hsp : l.head? ≠ some SP) :
    mergeTagRun o ⟨unlines [b!" type " ++ t.typ, b!" tag " ++ t.tag,
      b!" tagger " ++ personText t.tagger, b!" "] ++ t.message ++ T, e, N⟩ =
      .ok (({ t with object := o.object }, some l), s') := by
  have hN2 : 2 ≤ N := by omega
  obtain ⟨ls, hm, hls⟩ := h.message
  rw [List.append_assoc]
  simp only [unlines_cons, unlines_nil, List.nil_append]
  rw [mergeTagRun_eq _ _ hN2, Stream.readLine_line _ e h.typ]
  simp only [hasPrefix_append, if_true]
  rw [sliceFrom_append b!" type " _ 6 rfl]
  simp only [Res.bind_ok]
  rw [mergeTagRun_eq _ _ hN2, Stream.readLine_line _ e h.tag]
  have hno : hasPrefix (b!" tag " ++ t.tag) b!" type " = false := by simp [hasPrefix, List.isPrefixOf]
  simp only [hno, hasPrefix_append, if_true]
  rw [sliceFrom_append b!" tag " _ 5 rfl]
  simp only [Res.bind_ok]
  rw [mergeTagRun_eq _ _ hN2, Stream.readLine_line _ e h.taggerLine]
  have hno1 : hasPrefix (b!" tagger " ++ personText t.tagger) b!" type " = false := by simp [hasPrefix, List.isPrefixOf]
  have hno2 : hasPrefix (b!" tagger " ++ personText t.tagger) b!" tag " = false := by simp [hasPrefix, List.isPrefixOf]
  simp only [hno1, hno2, hasPrefix_append, if_true]
  have hsl : sliceFrom (b!" tagger " ++ personText t.tagger) 1 = .ok (b!"tagger" ++ SP :: personText t.tagger) := by
    simp [sliceFrom]
  have hpp := person_line b!"tagger" t.tagger (by decide) h.tagger
  rw [hsl]
  simp only [Res.bind_ok, hpp]
  rw [mergeTagRun_eq _ _ hN2, Stream.readLine_line (l := b!" ") _ e ⟨by decide, by decide, by simp; omega⟩]
  have ha : hasPrefix b!" " b!" type " = false := by decide
  have hb : hasPrefix b!" " b!" tag " = false := by decide
  have hc : hasPrefix b!" " b!" tagger " = false := by decide
  simp only [ha, hb, hc, if_true]
  rw [hm, mergeMsgRun_lines ls [] l T s' e N hN2 hls hl hsp]
  simp only [List.nil_append, Res.bind_ok, if_false, Bool.false_eq_true]

/-- The first line of a text is there and is not a continuation line. -/
def StartsOk (N : Nat) (e : Err) (T : Bytes) : Prop :=
  ∃ l s', Stream.readLine ⟨T, e, N⟩ = .ok (l, s') ∧ l.head? ≠ some SP

theorem startsOk_line {N : Nat} {e : Err} {l r : Bytes} (hl : HeaderLine N l) (hsp : l.head? ≠ some SP) :
    StartsOk N e (l ++ LF :: r) := ⟨l, _, Stream.readLine_line r e hl, hsp⟩

theorem startsOk_of {N : Nat} {e : Err} {T : Bytes} (l r : Bytes) (h : T = l ++ LF :: r)
    (hl : HeaderLine N l) (hsp : l.head? ≠ some SP) : StartsOk N e T := h ▸ startsOk_line hl hsp

theorem commitRun_mergetag (t : Tag) (c : Commit) (x T : Bytes) (e : Err) (N : Nat) (hN : 4096 ≤ N)
    (hx : Ref x (digest t.object)) (h : MergeTagOk N t) (hT : StartsOk N e T) :
    commitRun c ⟨mergeTagBlock x t ++ T, e, N⟩ =
      commitRun { c with mergetag := c.mergetag ++ [t] } ⟨T, e, N⟩ := by
  have hN2 : 2 ≤ N := by omega
  obtain ⟨l, s', hl, hsp⟩ := hT
  have ht : mergeTagBlock x t ++ T =
      (b!"mergetag object " ++ x) ++ LF ::
        (unlines [b!" type " ++ t.typ, b!" tag " ++ t.tag, b!" tagger " ++ personText t.tagger, b!" "]
          ++ t.message ++ T) := by
    simp [mergeTagBlock, unlines]
  rw [ht, commitRun_line _ _ _ _ _ hN2 (headerLine_ref N _ _ _ (by decide) hx (by simp; omega)),
    commitRun_eq _ ⟨T, e, N⟩ hN2, hl, commitLineRun_eq _ _ _ hN2]
  have hno : ∀ p ∈ [b!"tree ", b!"parent ", b!"author ", b!"committer ", b!"encoding "],
      hasPrefix (b!"mergetag object " ++ x) p = false := by
    intro p hp
    simp only [List.mem_cons, List.not_mem_nil, or_false] at hp
    rcases hp with rfl | rfl | rfl | rfl | rfl <;> simp [hasPrefix, List.isPrefixOf]
  rw [hno _ (by simp), hno _ (by simp), hno _ (by simp), hno _ (by simp), hno _ (by simp)]
  simp only [Bool.false_eq_true, if_false, hasPrefix_append, if_true]
  rw [sliceFrom_append b!"mergetag object " _ 16 rfl]
  simp only [Res.bind_ok, (hexDecode_iff _ _).2 hx.1]
  rw [readMergeTag_eq, shaToCid_ok _ hx.2]
  simp only [Res.bind_ok]
  rw [mergeTagRun_text t _ l T s' e N hN h hl hsp]
  simp only [Res.bind_ok, gitLink_digest h.object]

theorem startsOk_mergetag (t : Tag) (x : Bytes) (N : Nat) (hN : 4096 ≤ N)
    (hx : Ref x (digest t.object)) (e : Err) (T : Bytes) : StartsOk N e (mergeTagBlock x t ++ T) := by
  refine startsOk_of (b!"mergetag object " ++ x)
    (unlines [b!" type " ++ t.typ, b!" tag " ++ t.tag, b!" tagger " ++ personText t.tagger, b!" "]
      ++ t.message ++ T) ?_
    (headerLine_ref N _ _ _ (by decide) hx (by simp; omega)) (by simp; decide)
  simp [mergeTagBlock, unlines]

theorem commitRun_mergetags (ts : List Tag) (c : Commit) (T : Bytes) (e : Err) (N : Nat)
    (hN : 4096 ≤ N) (h : ∀ t ∈ ts, MergeTagOk N t) (hT : ts ≠ [] → StartsOk N e T) :
    commitRun c ⟨ts.flatMap mergeTagText ++ T, e, N⟩ =
      commitRun { c with mergetag := c.mergetag ++ ts } ⟨T, e, N⟩ := by
  induction ts generalizing c with
  | nil => simp
  | cons t ts ih =>
    have hs : StartsOk N e (ts.flatMap mergeTagText ++ T) := by
      cases ts with
      | nil => simpa using hT (by simp)
      | cons u us =>
        rw [List.flatMap_cons, List.append_assoc]
        exact startsOk_mergetag u _ N hN (ref_hex _ (digest_length (h u (by simp)).object)) e _
    rw [List.flatMap_cons, List.append_assoc, mergeTagText,
      commitRun_mergetag t c _ _ e N hN (ref_hex _ (digest_length (h t (by simp)).object))
        (h t (by simp)) hs,
      ih _ (fun x hx => h x (by simp [hx])) (fun _ => hT (by simp))]
    simp

theorem sigRun_lines (ls : List Bytes) (m r : Bytes) (e : Err) (N : Nat) (hN : 4096 ≤ N)
    (hls : ∀ x ∈ ls, HeaderLine N x) (hne : ∀ x ∈ ls, x ≠ sigEnd) :
    sigRun m ⟨unlines ls ++ (sigEnd ++ LF :: r), e, N⟩ = .ok (m ++ unlines ls, ⟨r, e, N⟩) := by
  have hN2 : 2 ≤ N := by omega
  induction ls generalizing m with
  | nil =>
    have hend : HeaderLine N sigEnd := ⟨by decide, by decide, by simp [sigEnd]; omega⟩
    rw [unlines_nil, List.nil_append, sigRun_eq _ _ hN2, Stream.readLine_line r e hend]
    simp only [sigEnd, if_true]
    simp
  | cons x xs ih =>
    rw [unlines_cons, sigRun_eq _ _ hN2, Stream.readLine_line _ e (hls x (by simp))]
    have hx := hne x (by simp)
    simp only [sigEnd] at hx
    simp only [hx, if_false]
    rw [ih _ (fun y hy => hls y (by simp [hy])) (fun y hy => hne y (by simp [hy]))]
    simp [unlines]

theorem commitLine_sig (c : Commit) (g r : Bytes) (e : Err) (N : Nat) (hN : 4096 ≤ N) (h : SigOk N g) :
    commitLineRun c sigBegin ⟨g ++ (sigEnd ++ LF :: r), e, N⟩ =
      .ok ({ c with signature := some g }, ⟨r, e, N⟩) := by
  have hN2 : 2 ≤ N := by omega
  obtain ⟨l, ls, rfl, hall, hne, hfirst⟩ := h
  have hg : decodeGpgSig ⟨unlines (l :: ls) ++ (sigEnd ++ LF :: r), e, N⟩ =
      .ok (unlines (l :: ls), (⟨r, e, N⟩ : Stream)) := by
    rw [decodeGpgSig_eq, unlines_cons, Stream.readLine_line _ e (hall l (by simp))]
    simp only [Res.bind_ok]
    have hsig : (if l ≠ b!" " then
        if (hasPrefix l b!" Version: " || hasPrefix l b!" Comment: ") = true then .ok (l ++ [LF])
        else .err .badSig
      else .ok b!" \n") = (.ok (l ++ [LF]) : Res Bytes) := by
      by_cases hl : l = b!" "
      · rw [hl]; rfl
      · rw [if_pos hl, if_pos]
        rcases hfirst with h1 | h1 | h1
        · exact absurd h1 hl
        · simp [hasPrefix, List.isPrefixOf_iff_prefix.2 h1]
        · simp [hasPrefix, List.isPrefixOf_iff_prefix.2 h1]
    rw [hsig]
    simp only [Res.bind_ok]
    rw [sigRun_lines ls _ r e N hN (fun y hy => hall y (by simp [hy])) hne]
    simp [unlines]
  rw [commitLineRun_eq _ _ _ hN2, hg]
  simp [hasPrefix, sigBegin]

theorem commitRun_other (ls : List Bytes) (c : Commit) (r : Bytes) (e : Err) (N : Nat)
    (hN : 4096 ≤ N) (h : ∀ l ∈ ls, OtherOk N l) :
    commitRun c ⟨unlines ls ++ r, e, N⟩ = commitRun { c with other := c.other ++ ls } ⟨r, e, N⟩ := by
  induction ls generalizing c with
  | nil => simp
  | cons l ls ih =>
    have hl := h l (by simp)
    rw [unlines_cons, commitRun_line _ _ _ _ _ (by omega) hl.line,
      commitLine_other _ _ _ (by simp; omega) hl.nonempty hl.unknown, Res.bind_ok,
      ih _ (fun x hx => h x (by simp [hx]))]
    simp

theorem commitRun_message (c : Commit) (m : Bytes) (N : Nat) (hN : 4096 ≤ N) :
    commitRun c ⟨LF :: m, .eof, N⟩ = .ok { c with message := m } := by
  have hN2 : 2 ≤ N := by omega
  have := commitRun_line c [] m .eof N hN2 (headerLine_nil N (by omega))
  rw [List.nil_append] at this
  rw [this, commitLineRun_eq _ _ _ hN2]
  have hr : Stream.readAll ⟨m, .eof, N⟩ = .ok (m, ⟨[], .eof, N⟩) := rfl
  simp only [hasPrefix, List.isPrefixOf, Bool.false_eq_true, if_false, List.length_nil, if_true, hr,
    Res.bind_ok]
  rw [commitRun_nil _ _ hN2]

theorem commitRun_body (c : Commit) (a k : PersonInfo) (N : Nat) (hN : 4096 ≤ N)
    (h : CommitOk N c a k) : commitRun Commit.zero ⟨commitBody c a k, .eof, N⟩ = .ok c := by
  have hN2 : 2 ≤ N := by omega
  unfold commitBody
  simp only [List.append_assoc]
  -- tree
  rw [unlines_cons, unlines_nil, List.nil_append,
    commitRun_line _ _ _ _ _ hN2
      (headerLine_hex N _ _ (by decide) (digest_length h.tree) (by simp; omega)),
    commitLine_tree _ _ _ _ hN2 (ref_hex _ (digest_length h.tree)), Res.bind_ok]
  -- parents
  rw [commitRun_parents _ _ _ _ _ hN h.parents]
  -- author, committer
  rw [unlines_cons, unlines_cons, unlines_nil, List.nil_append,
    commitRun_line _ _ _ _ _ hN2 h.authorLine, commitLine_author _ _ _ hN2 h.authorOk, Res.bind_ok,
    commitRun_line _ _ _ _ _ hN2 h.committerLine, commitLine_committer _ _ _ hN2 h.committerOk,
    Res.bind_ok]
  -- encoding
  have henc : ∀ (d : Commit) (T : Bytes), d.encoding = none →
      commitRun d ⟨encodingText c.encoding ++ T, .eof, N⟩ =
        commitRun { d with encoding := c.encoding } ⟨T, .eof, N⟩ := by
    intro d T hd
    cases he : c.encoding with
    | none => cases d; simp_all [encodingText]
    | some x =>
      simp only [encodingText]
      rw [unlines_cons, unlines_nil, List.nil_append,
        commitRun_line _ _ _ _ _ hN2 (h.encoding x he), commitLine_encoding _ _ _ hN2, Res.bind_ok]
  dsimp only
  rw [henc _ _ rfl]
  -- merge tags
  have hstart : c.mergetag ≠ [] →
      StartsOk N .eof (sigText c.signature ++ (unlines c.other ++ (unlines [b!""] ++ c.message))) := by
    intro hm
    cases hg : c.signature with
    | some g =>
      refine startsOk_of sigBegin (g ++ (unlines [sigEnd] ++ (unlines c.other ++ (unlines [b!""] ++ c.message))))
        ?_ ⟨by decide, by decide, by simp [sigBegin]; omega⟩ (by decide)
      simp [unlines, sigText]
    | none =>
      cases ho : c.other with
      | nil => exact startsOk_of [] c.message (by simp [unlines, sigText]) (headerLine_nil N (by omega)) (by simp)
      | cons l ls =>
        exact startsOk_of l (unlines ls ++ (unlines [b!""] ++ c.message)) (by simp [unlines, sigText])
          (h.other l (by simp [ho])).line (h.afterTag hm hg l (by simp [ho]))
  rw [commitRun_mergetags _ _ _ _ _ hN h.mergetag hstart]
  -- signature
  have hsig : ∀ (d : Commit) (T : Bytes), d.signature = none →
      commitRun d ⟨sigText c.signature ++ T, .eof, N⟩ =
        commitRun { d with signature := c.signature } ⟨T, .eof, N⟩ := by
    intro d T hd
    cases he : c.signature with
    | none => cases d; simp_all [sigText]
    | some g =>
      simp only [sigText, List.append_assoc]
      rw [unlines_cons, unlines_nil, List.nil_append,
        commitRun_line _ _ _ _ _ hN2 ⟨by decide, by decide, by simp [sigBegin]; omega⟩]
      have := commitLine_sig d g T .eof N hN (h.signature g he)
      rw [unlines_cons, unlines_nil, List.nil_append, this, Res.bind_ok]
  rw [hsig _ _ rfl]
  -- other, message
  rw [commitRun_other _ _ _ _ _ hN h.other]
  have hlast : unlines [b!""] ++ c.message = LF :: c.message := by simp [unlines]
  rw [hlast, commitRun_message _ _ _ hN]
  have ha := h.authorIs
  have hk := h.committerIs
  have ht := gitLink_digest h.tree
  cases c
  simp only [Commit.zero, List.nil_append, gitLink_eq] at *
  simp_all

theorem encParents_eq (ps : List Link) (h : ∀ p ∈ ps, IsGitLink p) :
    encParents ps = .ok (unlines (ps.map fun p => b!"parent " ++ hex (digest p))) := by
  induction ps with
  | nil => rfl
  | cons p ps ih =>
    simp only [encParents, linkSha_git (h p (by simp)), Res.bind_ok,
      ih (fun x hx => h x (by simp [hx]))]
    simp [unlines, hex_eq]

theorem encMergeTags_eq (ts : List Tag) (h : ∀ t ∈ ts, IsGitLink t.object) :
    encMergeTags ts = .ok (ts.flatMap mergeTagText) := by
  induction ts with
  | nil => rfl
  | cons t ts ih =>
    simp only [encMergeTags, encMergeTag, linkSha_git (h t (by simp)), Res.bind_ok,
      ih (fun x hx => h x (by simp [hx]))]
    simp [mergeTagText, mergeTagBlock, unlines, hex_eq, personText_eq]

theorem encCommit_eq (c : Commit) (a k : PersonInfo) (N : Nat) (h : CommitOk N c a k) :
    encCommit c = .ok (withHeader b!"commit" (commitBody c a k)) := by
  unfold encCommit
  rw [linkSha_git h.tree, encParents_eq _ h.parents, h.authorIs, h.committerIs,
    encMergeTags_eq _ (fun t ht => (h.mergetag t ht).object)]
  simp only [Res.bind_ok, personOrPanic]
  congr 2
  unfold commitBody encOther
  cases c.encoding <;> cases c.signature <;>
    simp [unlines, hex_eq, personText_eq, sigBegin, sigEnd, encodingText, sigText]

/-! ## headers in any order -/

theorem startsOk_item (i : Item) (N : Nat) (hN : 4096 ≤ N) (h : i.Ok N)
    (hsp : ∀ l, i = .other l → l.head? ≠ some SP) (e : Err) (T : Bytes) : StartsOk N e (i.text ++ T) := by
  cases i with
  | tree x sha =>
    exact startsOk_of (b!"tree " ++ x) T (by simp [Item.text, unlines])
      (headerLine_ref N _ _ _ (by decide) h (by simp; omega)) (by simp; decide)
  | parent x sha =>
    exact startsOk_of (b!"parent " ++ x) T (by simp [Item.text, unlines])
      (headerLine_ref N _ _ _ (by decide) h (by simp; omega)) (by simp; decide)
  | author p => exact startsOk_of _ T (by simp [Item.text, unlines]) h.2 (by simp; decide)
  | committer p => exact startsOk_of _ T (by simp [Item.text, unlines]) h.2 (by simp; decide)
  | encoding x => exact startsOk_of _ T (by simp [Item.text, unlines]) h (by simp; decide)
  | mergetag x t => exact startsOk_mergetag t x N hN h.1 e T
  | sig g =>
    exact startsOk_of sigBegin (g ++ (unlines [sigEnd] ++ T)) (by simp [Item.text, unlines])
      ⟨by decide, by decide, by simp [sigBegin]; omega⟩ (by decide)
  | other l => exact startsOk_of l T (by simp [Item.text, unlines]) h.line (hsp l rfl)

theorem commitRun_items' (is : List Item) (c : Commit) (T : Bytes) (e : Err) (N : Nat)
    (hN : 4096 ≤ N) (h : ItemsOk N is) (hT : (∃ x t, is.getLast? = some (.mergetag x t)) → StartsOk N e T) :
    commitRun c ⟨itemsText is ++ T, e, N⟩ = commitRun (is.foldl Item.apply c) ⟨T, e, N⟩ := by
  have hN2 : 2 ≤ N := by omega
  induction is generalizing c with
  | nil => simp [itemsText]
  | cons i is ih =>
    obtain ⟨hi, hf, his⟩ := h
    have ih := fun c => ih c his (by
      rintro ⟨x, t, hx⟩
      refine hT ⟨x, t, ?_⟩
      cases is with
      | nil => simp at hx
      | cons j js => rw [List.getLast?_cons_cons]; exact hx)
    have hb : itemsText (i :: is) ++ T = i.text ++ (itemsText is ++ T) := by simp [itemsText]
    rw [hb, List.foldl_cons, ← ih]
    cases i with
    | tree x sha =>
      simp only [Item.text, unlines_cons, unlines_nil, List.nil_append]
      rw [commitRun_line _ _ _ _ _ hN2 (headerLine_ref N _ _ _ (by decide) hi (by simp; omega)),
        commitLine_tree _ _ _ _ hN2 hi]
      rfl
    | parent x sha =>
      simp only [Item.text, unlines_cons, unlines_nil, List.nil_append]
      rw [commitRun_line _ _ _ _ _ hN2 (headerLine_ref N _ _ _ (by decide) hi (by simp; omega)),
        commitLine_parent _ _ _ _ hN2 hi]
      rfl
    | author p =>
      simp only [Item.text, unlines_cons, unlines_nil, List.nil_append]
      rw [commitRun_line _ _ _ _ _ hN2 hi.2, commitLine_author _ _ _ hN2 hi.1]
      rfl
    | committer p =>
      simp only [Item.text, unlines_cons, unlines_nil, List.nil_append]
      rw [commitRun_line _ _ _ _ _ hN2 hi.2, commitLine_committer _ _ _ hN2 hi.1]
      rfl
    | encoding x =>
      simp only [Item.text, unlines_cons, unlines_nil, List.nil_append]
      rw [commitRun_line _ _ _ _ _ hN2 hi, commitLine_encoding _ _ _ hN2]
      rfl
    | mergetag x t =>
      have hs : StartsOk N e (itemsText is ++ T) := by
        cases is with
        | nil => simpa [itemsText] using hT ⟨x, t, rfl⟩
        | cons j js =>
          have hb : itemsText (j :: js) ++ T = j.text ++ (itemsText js ++ T) := by simp [itemsText]
          rw [hb]
          exact startsOk_item j N hN his.1 (fun l hl => hf x t l rfl (by simp [hl])) e _
      simp only [Item.text, Item.apply]
      rw [commitRun_mergetag t c x _ e N hN hi.1 hi.2 hs]
    | sig g =>
      simp only [Item.text, List.append_assoc]
      rw [unlines_cons, unlines_nil, List.nil_append,
        commitRun_line _ _ _ _ _ hN2 ⟨by decide, by decide, by simp [sigBegin]; omega⟩]
      rw [unlines_cons, unlines_nil, List.nil_append, commitLine_sig c g _ e N hN hi]
      rfl
    | other l =>
      simp only [Item.text, unlines_cons, unlines_nil, List.nil_append]
      rw [commitRun_line _ _ _ _ _ hN2 hi.line, commitLine_other _ _ _ hN2 hi.nonempty hi.unknown]
      rfl

theorem commitRun_items (is : List Item) (c : Commit) (T : Bytes) (e : Err) (N : Nat)
    (hN : 4096 ≤ N) (h : ItemsOk N is) (hT : StartsOk N e T) :
    commitRun c ⟨itemsText is ++ T, e, N⟩ = commitRun (is.foldl Item.apply c) ⟨T, e, N⟩ :=
  commitRun_items' is c T e N hN h fun _ => hT

theorem startsOk_message (N : Nat) (hN : 4096 ≤ N) (e : Err) (m : Bytes) : StartsOk N e (LF :: m) :=
  startsOk_of [] m rfl (headerLine_nil N (by omega)) (by simp)

theorem commitRun_itemsBody (is : List Item) (m : Bytes) (N : Nat) (hN : 4096 ≤ N)
    (h : ItemsOk N is) :
    commitRun Commit.zero ⟨itemsBody is m, .eof, N⟩ = .ok (commitOf is m) := by
  unfold itemsBody
  rw [commitRun_items is _ _ _ N hN h (startsOk_message N hN .eof m), commitRun_message _ _ _ hN]
  rfl

theorem tagRun_items (is : List TagItem) (t : Tag) (T : Bytes) (e : Err) (N : Nat)
    (hN : 4096 ≤ N) (h : ∀ i ∈ is, i.Ok N) :
    tagRun t ⟨tagItemsText is ++ T, e, N⟩ = tagRun (is.foldl TagItem.apply t) ⟨T, e, N⟩ := by
  have hN2 : 2 ≤ N := by omega
  induction is generalizing t with
  | nil => simp [tagItemsText]
  | cons i is ih =>
    have hi := h i (by simp)
    have ih := fun t => ih t (fun j hj => h j (by simp [hj]))
    have hb : tagItemsText (i :: is) ++ T = i.line ++ LF :: (tagItemsText is ++ T) := by
      simp [tagItemsText, unlines]
    rw [hb, List.foldl_cons, ← ih]
    cases i with
    | object x sha =>
      simp only [TagItem.line]
      rw [tagRun_line _ _ _ _ _ hN2 (headerLine_ref N _ _ _ (by decide) hi (by simp; omega))]
      have h1 : ∀ (o : Tag) (s : Stream), tagLine o (b!"object " ++ x) s =
          .ok ({ o with object := .cid (gitCid sha) }, s) := by
        intro o s
        unfold tagLine
        rw [if_pos (hasPrefix_append _ _)]
        exact ref_line b!"object " _ _ 7 rfl hi _
      rw [h1]; rfl
    | typ x =>
      simp only [TagItem.line]
      rw [tagRun_line _ _ _ _ _ hN2 hi]
      have h1 : ∀ (o : Tag) (s : Stream), tagLine o (b!"type " ++ x) s =
          .ok ({ o with typ := x }, s) := by
        intro o s; unfold tagLine; simp [hasPrefix, List.isPrefixOf, sliceFrom]
      rw [h1]; rfl
    | tag x =>
      simp only [TagItem.line]
      rw [tagRun_line _ _ _ _ _ hN2 hi]
      have h1 : ∀ (o : Tag) (s : Stream), tagLine o (b!"tag " ++ x) s =
          .ok ({ o with tag := x }, s) := by
        intro o s; unfold tagLine; simp [hasPrefix, List.isPrefixOf, sliceFrom]
      rw [h1]; rfl
    | tagger p =>
      simp only [TagItem.line]
      rw [tagRun_line _ _ _ _ _ hN2 hi.2]
      have h1 : ∀ (o : Tag) (s : Stream), tagLine o (b!"tagger " ++ personText p) s =
          .ok ({ o with tagger := p }, s) := by
        intro o s
        have hp := person_line b!"tagger" p (by decide) hi.1
        have he : b!"tagger" ++ SP :: personText p = b!"tagger " ++ personText p := rfl
        rw [he] at hp
        unfold tagLine; rw [hp]; simp [hasPrefix, List.isPrefixOf]
      rw [h1]; rfl
    | unknown l =>
      simp only [TagItem.line]
      rw [tagRun_line _ _ _ _ _ hN2 hi.1]
      have hp : ∀ p ∈ [b!"object ", b!"type ", b!"tag ", b!"tagger "], ¬ (hasPrefix l p = true) := by
        intro p hp h
        exact hi.2.2 p hp (List.isPrefixOf_iff_prefix.1 h)
      have h1 : ∀ (o : Tag) (s : Stream), tagLine o l s = .ok (o, s) := by
        intro o s
        unfold tagLine
        rw [if_neg (hp _ (by simp)), if_neg (hp _ (by simp)), if_neg (hp _ (by simp)),
          if_neg (hp _ (by simp)), if_neg (by simpa using hi.2.1)]
      rw [h1]; rfl

theorem tagRun_message (t : Tag) (m : Bytes) (N : Nat) (hN : 4096 ≤ N) :
    tagRun t ⟨LF :: m, .eof, N⟩ = .ok { t with message := m } := by
  have hN2 : 2 ≤ N := by omega
  have hnl := tagRun_line t [] m .eof N hN2 (headerLine_nil N (by omega))
  rw [List.nil_append] at hnl
  rw [hnl]
  have h5 : tagLine (σ := Stream) t [] ⟨m, .eof, N⟩ = .ok ({ t with message := m }, ⟨[], .eof, N⟩) := rfl
  rw [h5]
  simp only [Res.bind_ok]
  rw [tagRun_nil _ _ hN2]

end Verif
