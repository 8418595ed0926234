import Verif.Props.Commit
import Verif.Proofs.Ground

/-!
# Commit headers one by one: C13 (commits), C14, C32, C33, C34, C36

The statements range over arbitrary sequences of well-formed header items, in
any order and with repetitions.
-/

namespace Verif.Props

open Verif Spec

/-- The encoded size header announces something that fits an `int64`; the decoder
does not compare it with the body. -/
def SizeText (d : Bytes) : Prop := ∃ z, Signed d z ∧ -(2 ^ 63 : Int) ≤ z ∧ z < 2 ^ 63

theorem parse_commit_size {d : Bytes} (hd : SizeText d) (body : Bytes) (e : Err) (N : Nat) :
    parseObject (σ := Stream) ⟨b!"commit " ++ d ++ NUL :: body, e, N⟩ =
      commitRun Commit.zero ⟨body, e, N⟩ >>= fun c => .ok (.commit c) := by
  obtain ⟨z, h1, h2, h3⟩ := hd
  exact parse_commit_signed d body z e N h1 h2 h3

theorem parse_items {d : Bytes} (hd : SizeText d) (N : Nat) (hN : 4096 ≤ N) (is : List Item)
    (h : ItemsOk N is) (msg : Bytes) :
    parseObject (σ := Stream) ⟨b!"commit " ++ d ++ NUL :: itemsBody is msg, .eof, N⟩ =
      .ok (.commit (commitOf is msg)) := by
  rw [parse_commit_size hd, commitRun_itemsBody is msg N hN h]
  rfl

theorem sizeText_decimal (n : Nat) (h : n < 2 ^ 63) : SizeText (decimal n) :=
  ⟨n, canonical_signed (decimal_canonical n), by omega, by omega⟩

def sampleItems : List Item :=
  [.parent (hex (List.replicate 20 2)) (List.replicate 20 2),
   .tree (b!"ABCDEFabcdef" ++ List.replicate 28 48) ([171, 205, 239, 171, 205, 239] ++ List.replicate 14 0),
   .mergetag (hex (List.replicate 20 9)) sampleMerge,
   .author samplePerson, .committer samplePerson, .other b!"x y", .sig sampleSig,
   .parent (hex (List.replicate 20 3)) (List.replicate 20 3), .other b!" z"]

theorem sampleItems_ok (N : Nat) (hN : 4096 ≤ N) : ItemsOk N sampleItems := by
  refine ⟨ref_hex _ (by decide), by simp, ?_⟩
  refine ⟨⟨(hexDecode_iff _ _).1 (by decide), by decide⟩, by simp, ?_⟩
  refine ⟨⟨ref_hex _ (by decide), sampleMerge_ok N hN⟩, by simp, ?_⟩
  refine ⟨⟨samplePerson_ok, headerLine_mk (by decide) hN⟩, by simp, ?_⟩
  refine ⟨⟨samplePerson_ok, headerLine_mk (by decide) hN⟩, by simp, ?_⟩
  refine ⟨⟨headerLine_mk (by decide) hN, by decide, by decide⟩, by simp, ?_⟩
  refine ⟨sampleSig_ok N hN, by simp, ?_⟩
  refine ⟨ref_hex _ (by decide), by simp, ?_⟩
  exact ⟨⟨headerLine_mk (by decide) hN, by decide, by decide⟩, by simp, trivial⟩

theorem infix_withHeader {x body : Bytes} (w : Bytes) (h : x <:+: body) : x <:+: withHeader w body :=
  List.infix_append_of_infix_right h

/-- The pieces of an encoded commit. -/
theorem encCommit_inv (c : Commit) (out : Bytes) (h : encObj (.commit c) = .ok out) :
    ∃ th ps au co ms, linkSha c.tree = .ok th ∧ encParents c.parents = .ok ps ∧
      personOrPanic c.author = .ok au ∧ personOrPanic c.committer = .ok co ∧
      encMergeTags c.mergetag = .ok ms ∧
      out = withHeader b!"commit" (b!"tree " ++ hexEncode th ++ [LF] ++ ps ++ b!"author " ++ au ++ [LF]
        ++ b!"committer " ++ co ++ [LF] ++ encodingText c.encoding ++ ms ++ sigText c.signature
        ++ unlines c.other ++ LF :: c.message) := by
  simp only [encObj, encCommit] at h
  obtain ⟨th, h1, h⟩ := Res.bind_eq_ok.1 h
  obtain ⟨ps, h2, h⟩ := Res.bind_eq_ok.1 h
  obtain ⟨au, h3, h⟩ := Res.bind_eq_ok.1 h
  obtain ⟨co, h4, h⟩ := Res.bind_eq_ok.1 h
  obtain ⟨ms, h5, h⟩ := Res.bind_eq_ok.1 h
  have h := Res.ok.inj h
  refine ⟨th, ps, au, co, ms, h1, h2, h3, h4, h5, ?_⟩
  rw [← h]
  refine congrArg (withHeader _) ?_
  unfold encOther
  cases c.encoding <;> cases c.signature <;> simp [unlines, encodingText, sigText, sigBegin, sigEnd]

/-- The end of an encoded commit. -/
theorem encCommit_tail (c : Commit) (out : Bytes) (h : encObj (.commit c) = .ok out) :
    ∃ P ms, encMergeTags c.mergetag = .ok ms ∧
      out = P ++ ms ++ sigText c.signature ++ unlines c.other ++ LF :: c.message := by
  obtain ⟨th, ps, au, co, ms, h1, h2, h3, h4, h5, rfl⟩ := encCommit_inv c out h
  unfold withHeader
  simp only [← List.append_assoc]
  exact ⟨_, ms, h5, rfl⟩

/-! ## C13 Messages are preserved verbatim (commits) -/

/-- After any well-formed header block the bytes after the blank line are the
message; they are also the end of what is written for the commit. -/
theorem commit_message_verbatim (N : Nat) (hN : 4096 ≤ N) (d : Bytes) (hd : SizeText d) (is : List Item)
    (h : ItemsOk N is) (msg : Bytes) :
    ∃ c, parseObject (σ := Stream) ⟨b!"commit " ++ d ++ NUL :: itemsBody is msg, .eof, N⟩ = .ok (.commit c) ∧
      c.message = msg ∧ ∀ out, encObj (.commit c) = .ok out → (LF :: msg) <:+ out := by
  refine ⟨_, parse_items hd N hN is h msg, rfl, ?_⟩
  intro out hout
  obtain ⟨P, ms, _, rfl⟩ := encCommit_tail _ _ hout
  exact List.suffix_append _ _

example : ItemsOk 4096 sampleItems ∧ SizeText b!"12" ∧ (itemsBody sampleItems b!"m").length > 500 :=
  ⟨sampleItems_ok 4096 (by omega), sizeText_decimal 12 (by omega), by decide +kernel⟩

/-! ## C14 Parents keep their order -/

/-- The parents are the `parent` headers, in stream order, whatever other headers
stand between them; the encoding lists them in that order. -/
theorem commit_parents (N : Nat) (hN : 4096 ≤ N) (d : Bytes) (hd : SizeText d) (is : List Item)
    (h : ItemsOk N is) (msg : Bytes) :
    ∃ c, parseObject (σ := Stream) ⟨b!"commit " ++ d ++ NUL :: itemsBody is msg, .eof, N⟩ = .ok (.commit c) ∧
      c.parents = (is.filterMap fun
        | .parent _ sha => some (gitLink sha)
        | _ => none) := by
  refine ⟨_, parse_items hd N hN is h msg, ?_⟩
  show (is.foldl Item.apply noCommit).parents = _
  rw [foldl_parents]
  rfl

/-- The encoder writes one line per parent, in order. -/
theorem commit_parents_encoded (c : Commit) (hp : ∀ p ∈ c.parents, IsGitLink p) (out : Bytes)
    (h : encObj (.commit c) = .ok out) :
    (unlines (c.parents.map fun p => b!"parent " ++ hex (digest p)) ++ b!"author ") <:+: out := by
  obtain ⟨th, ps, au, co, ms, h1, h2, h3, h4, h5, rfl⟩ := encCommit_inv c out h
  rw [encParents_eq _ hp] at h2
  rw [Res.ok.inj h2]
  refine infix_withHeader _ ?_
  refine ⟨b!"tree " ++ hexEncode th ++ [LF], au ++ [LF] ++ b!"committer " ++ co ++ [LF] ++
    encodingText c.encoding ++ ms ++ sigText c.signature ++ unlines c.other ++ LF :: c.message, ?_⟩
  simp

/-! ## C32 Signatures are preserved verbatim -/

theorem foldl_sig (is : List Item) (c : Commit) (hno : ∀ i ∈ is, ∀ g, i ≠ .sig g) :
    (is.foldl Item.apply c).signature = c.signature := by
  induction is generalizing c with
  | nil => rfl
  | cons i is ih =>
    rw [List.foldl_cons, ih _ fun j hj => hno j (by simp [hj])]
    cases i with
    | sig g => exact absurd rfl (hno (.sig g) (by simp) g)
    | _ => rfl

/-- The (last) signature block is the signature of the decoded commit, and it is
written back unchanged between the same two lines. -/
theorem commit_signature (N : Nat) (hN : 4096 ≤ N) (d : Bytes) (hd : SizeText d) (pre post : List Item)
    (g msg : Bytes) (h : ItemsOk N (pre ++ .sig g :: post)) (hlast : ∀ i ∈ post, ∀ g', i ≠ .sig g') :
    ∃ c, parseObject (σ := Stream)
        ⟨b!"commit " ++ d ++ NUL :: itemsBody (pre ++ .sig g :: post) msg, .eof, N⟩ = .ok (.commit c) ∧
      c.signature = some g ∧
      ∀ out, encObj (.commit c) = .ok out →
        (unlines [b!"gpgsig -----BEGIN PGP SIGNATURE-----"] ++ g ++
          unlines [b!" -----END PGP SIGNATURE-----"]) <:+: out := by
  have hs : (commitOf (pre ++ .sig g :: post) msg).signature = some g := by
    show ((pre ++ .sig g :: post).foldl Item.apply noCommit).signature = _
    rw [List.foldl_append, List.foldl_cons, foldl_sig _ _ hlast]
    rfl
  refine ⟨_, parse_items hd N hN _ h msg, hs, ?_⟩
  intro out hout
  obtain ⟨P, ms, _, rfl⟩ := encCommit_tail _ _ hout
  rw [hs]
  exact ⟨P ++ ms, unlines (commitOf (pre ++ .sig g :: post) msg).other ++ LF :: msg, by
    simp [sigText, sigBegin, sigEnd, commitOf]⟩

example : ∃ pre post, sampleItems = pre ++ .sig sampleSig :: post ∧ pre.length = 6 ∧
    ∀ i ∈ post, ∀ g', i ≠ .sig g' :=
  ⟨sampleItems.take 6, sampleItems.drop 7, rfl, rfl, by
    intro i hi g'
    simp only [sampleItems, List.drop, List.mem_cons, List.not_mem_nil, or_false] at hi
    rcases hi with rfl | rfl <;> simp⟩

/-- A signature whose first line is neither blank nor a Version or Comment header
(as in SSH signatures) makes decoding fail, wherever it stands. -/
theorem commit_signature_rejected (N : Nat) (hN : 4096 ≤ N) (d : Bytes) (hd : SizeText d) (pre : List Item)
    (h : ItemsOk N pre) (x l rest : Bytes) (hx : HeaderLine N (b!"gpgsig " ++ x)) (hl : HeaderLine N l)
    (hbad : l ≠ b!" " ∧ ¬ b!" Version: " <+: l ∧ ¬ b!" Comment: " <+: l) (e : Err) :
    parseObject (σ := Stream) ⟨b!"commit " ++ d ++ NUL ::
      (itemsText pre ++ unlines [b!"gpgsig " ++ x, l] ++ rest), e, N⟩ = .err .badSig := by
  have hN2 : 2 ≤ N := by omega
  rw [parse_commit_size hd, List.append_assoc, unlines_cons, unlines_cons, unlines_nil, List.nil_append,
    commitRun_items pre _ _ _ N hN h (startsOk_line hx (by simp; decide)),
    commitRun_line _ _ _ _ _ hN2 hx, commitLineRun_eq _ _ _ hN2]
  have hg : decodeGpgSig (⟨l ++ LF :: rest, e, N⟩ : Stream) = .err .badSig := by
    rw [decodeGpgSig_eq, Stream.readLine_line _ _ hl]
    have h2 : hasPrefix l b!" Version: " = false := by
      cases hp : hasPrefix l b!" Version: " with
      | false => rfl
      | true => exact absurd (List.isPrefixOf_iff_prefix.1 hp) hbad.2.1
    have h3 : hasPrefix l b!" Comment: " = false := by
      cases hp : hasPrefix l b!" Comment: " with
      | false => rfl
      | true => exact absurd (List.isPrefixOf_iff_prefix.1 hp) hbad.2.2
    simp only [Res.bind_ok, ne_eq, hbad.1, not_false_eq_true, if_true, h2, h3]
    rfl
  simp [hasPrefix, List.isPrefixOf, hg]

example : HeaderLine 4096 (b!"gpgsig " ++ b!"-----BEGIN SSH SIGNATURE-----") ∧ HeaderLine 4096 b!" U1NIU0lH" ∧
    (b!" U1NIU0lH" ≠ b!" " ∧ ¬ b!" Version: " <+: b!" U1NIU0lH" ∧ ¬ b!" Comment: " <+: b!" U1NIU0lH") :=
  ⟨headerLine_mk (by decide) (by omega), headerLine_mk (by decide) (by omega), by decide⟩

/-- The text after `gpgsig ` on the first line is not kept: any opening line is
written back as `-----BEGIN PGP SIGNATURE-----`. -/
theorem commit_signature_opening_lost (N : Nat) (hN : 4096 ≤ N) (d : Bytes) (hd : SizeText d) (pre : List Item)
    (h : ItemsOk N pre) (x g msg : Bytes) (hx : HeaderLine N (b!"gpgsig " ++ x)) (hg : SigOk N g) :
    parseObject (σ := Stream) ⟨b!"commit " ++ d ++ NUL ::
      (itemsText pre ++ unlines [b!"gpgsig " ++ x] ++ g ++ unlines [b!" -----END PGP SIGNATURE-----"]
        ++ LF :: msg), .eof, N⟩ = .ok (.commit (commitOf (pre ++ [.sig g]) msg)) := by
  have hN2 : 2 ≤ N := by omega
  have hsig := commitLine_sig (pre.foldl Item.apply Commit.zero) g (LF :: msg) .eof N hN hg
  have hbody : itemsText pre ++ unlines [b!"gpgsig " ++ x] ++ g ++ unlines [b!" -----END PGP SIGNATURE-----"]
      ++ LF :: msg = itemsText pre ++ ((b!"gpgsig " ++ x) ++ LF ::
        (g ++ (b!" -----END PGP SIGNATURE-----" ++ LF :: LF :: msg))) := by simp [unlines]
  rw [parse_commit_size hd, hbody, commitRun_items pre _ _ _ N hN h (startsOk_line hx (by simp; decide)),
    commitRun_line _ _ _ _ _ hN2 hx]
  have : commitLineRun (pre.foldl Item.apply Commit.zero) (b!"gpgsig " ++ x)
      ⟨g ++ (b!" -----END PGP SIGNATURE-----" ++ LF :: LF :: msg), .eof, N⟩ =
      commitLineRun (pre.foldl Item.apply Commit.zero) sigBegin
        ⟨g ++ (sigEnd ++ LF :: LF :: msg), .eof, N⟩ := by
    rw [commitLineRun_eq _ _ _ hN2, commitLineRun_eq _ _ _ hN2]
    simp [hasPrefix, List.isPrefixOf, sigBegin, sigEnd]
  rw [this, hsig]
  simp only [Res.bind_ok]
  rw [commitRun_message _ _ _ hN]
  simp [commitOf, List.foldl_append, Item.apply, noCommit, Commit.zero]

/-! ## C33 Unknown commit headers are preserved -/

/-- Header lines that are not understood are kept in order, and written back in
that order as one block just before the message. -/
theorem commit_other_headers (N : Nat) (hN : 4096 ≤ N) (d : Bytes) (hd : SizeText d) (is : List Item)
    (h : ItemsOk N is) (msg : Bytes) :
    ∃ c, parseObject (σ := Stream) ⟨b!"commit " ++ d ++ NUL :: itemsBody is msg, .eof, N⟩ = .ok (.commit c) ∧
      c.other = (is.filterMap fun
        | .other l => some l
        | _ => none) ∧
      ∀ out, encObj (.commit c) = .ok out →
        (unlines (is.filterMap fun
          | .other l => some l
          | _ => none) ++ LF :: msg) <:+ out := by
  have ho : (commitOf is msg).other = (is.filterMap fun
        | .other l => some l
        | _ => none) := by
    show (is.foldl Item.apply noCommit).other = _
    rw [foldl_other]
    rfl
  refine ⟨_, parse_items hd N hN is h msg, ho, ?_⟩
  intro out hout
  obtain ⟨P, ms, _, rfl⟩ := encCommit_tail _ _ hout
  rw [ho]
  exact ⟨P ++ ms ++ sigText (commitOf is msg).signature, by simp [commitOf]⟩

/-! ## C34 Merge tags are preserved -/

/-- The merge tags are decoded in order with all their fields, and written back as
the same block of lines. What follows a merge tag is decoded as well (the result
is the commit described by all the items). -/
theorem commit_merge_tags (N : Nat) (hN : 4096 ≤ N) (d : Bytes) (hd : SizeText d) (is : List Item)
    (h : ItemsOk N is) (msg : Bytes) :
    ∃ c, parseObject (σ := Stream) ⟨b!"commit " ++ d ++ NUL :: itemsBody is msg, .eof, N⟩ = .ok (.commit c) ∧
      c = commitOf is msg ∧
      c.mergetag = (is.filterMap fun
        | .mergetag _ t => some t
        | _ => none) ∧
      ∀ out, encObj (.commit c) = .ok out →
        ((is.filterMap fun
          | .mergetag _ t => some t
          | _ => none).flatMap mergeTagText) <:+: out := by
  have hm : (commitOf is msg).mergetag = (is.filterMap fun
        | .mergetag _ t => some t
        | _ => none) := by
    show (is.foldl Item.apply noCommit).mergetag = _
    rw [foldl_mergetag]
    rfl
  refine ⟨_, parse_items hd N hN is h msg, rfl, hm, ?_⟩
  intro out hout
  obtain ⟨P, ms, hms, rfl⟩ := encCommit_tail _ _ hout
  have hlinks : ∀ t ∈ (commitOf is msg).mergetag, IsGitLink t.object := by
    intro t ht
    rw [hm] at ht
    simp only [List.mem_filterMap] at ht
    obtain ⟨i, hi, ht⟩ := ht
    cases i with
    | mergetag x t' =>
      simp only [Option.some.injEq] at ht
      subst ht
      exact (itemsOk_mem is N h _ hi).2.object
    | _ => simp at ht
  rw [encMergeTags_eq _ hlinks] at hms
  rw [← Res.ok.inj hms, hm]
  exact ⟨P, sigText (commitOf is msg).signature ++ unlines (commitOf is msg).other ++
    LF :: (commitOf is msg).message, by simp⟩

theorem mergeTagRun_swallow (ls : List Bytes) (t : Tag) (N : Nat) (hN : 4096 ≤ N)
    (hls : ∀ l ∈ ls, HeaderLine N l ∧ l.head? ≠ some SP) :
    mergeTagRun t ⟨unlines ls, .eof, N⟩ = .ok ((t, none), ⟨[], .eof, N⟩) := by
  have hN2 : 2 ≤ N := by omega
  induction ls with
  | nil => rw [unlines_nil, mergeTagRun_eq _ _ hN2]; rfl
  | cons l ls ih =>
    have hl := hls l (by simp)
    have := unlines_cons l ls []
    simp only [List.append_nil] at this
    rw [this, mergeTagRun_eq _ _ hN2, Stream.readLine_line _ _ hl.1]
    have hp : ∀ p : Bytes, hasPrefix l (SP :: p) = false := by
      intro p
      cases l with
      | nil => rfl
      | cons c l =>
        have hc : ¬ SP = c := by intro he; exact hl.2 (by simp [he])
        simp [hasPrefix, List.isPrefixOf, hc]
    have hne : l ≠ b!" " := by rintro rfl; exact hl.2 rfl
    simp only [hp, hne, Bool.false_eq_true, if_false]
    exact ih fun x hx => hls x (by simp [hx])

theorem commitOf_nil (is : List Item) : commitOf is [] = is.foldl Item.apply Commit.zero := by
  have hmsg : ∀ (is : List Item) (c : Commit), (is.foldl Item.apply c).message = c.message := by
    intro is
    induction is with
    | nil => intro c; rfl
    | cons i is ih => intro c; rw [List.foldl_cons, ih]; cases i <;> rfl
  have h := hmsg is Commit.zero
  have h0 : noCommit = Commit.zero := rfl
  unfold commitOf
  rw [h0]
  generalize is.foldl Item.apply Commit.zero = c at h ⊢
  cases c
  simp only at h
  subst h
  rfl

/-- Without its separator line a merge tag swallows everything after it: all the
remaining headers, the blank line and the message are dropped without an error.
(Git always writes the separator when the tag has a message.) -/
theorem commit_mergetag_swallows (N : Nat) (hN : 4096 ≤ N) (d : Bytes) (hd : SizeText d) (pre : List Item)
    (h : ItemsOk N pre) (x sha : Bytes) (hx : Ref x sha) (ls : List Bytes)
    (hls : ∀ l ∈ ls, HeaderLine N l ∧ l.head? ≠ some SP) :
    ∃ c, parseObject (σ := Stream) ⟨b!"commit " ++ d ++ NUL ::
      (itemsText pre ++ unlines ((b!"mergetag object " ++ x) :: ls)), .eof, N⟩ = .ok (.commit c) ∧
      c = { commitOf pre [] with
            mergetag := (commitOf pre []).mergetag ++ [{ noTag with object := gitLink sha }] } := by
  have hN2 : 2 ≤ N := by omega
  have hline : HeaderLine N (b!"mergetag object " ++ x) :=
    headerLine_ref N _ _ _ (by decide) hx (by simp; omega)
  refine ⟨_, ?_, rfl⟩
  have := unlines_cons (b!"mergetag object " ++ x) ls []
  simp only [List.append_nil] at this
  rw [parse_commit_size hd, this, commitRun_items pre _ _ _ N hN h (startsOk_line hline (by simp; decide)),
    commitRun_line _ _ _ _ _ hN2 hline, commitLineRun_eq _ _ _ hN2]
  have hm : readMergeTag sha (⟨unlines ls, .eof, N⟩ : Stream) =
      .ok (({ noTag with object := gitLink sha }, none), ⟨[], .eof, N⟩) := by
    rw [readMergeTag_eq, shaToCid_ok sha hx.2]
    exact mergeTagRun_swallow ls _ N hN hls
  have hhex : hexDecode x = .ok sha := (hexDecode_iff _ _).2 hx.1
  have hsl : sliceFrom (b!"mergetag object " ++ x) 16 = .ok x := sliceFrom_append _ _ _ rfl
  rw [if_neg (by simp [hasPrefix, List.isPrefixOf]), if_neg (by simp [hasPrefix, List.isPrefixOf]),
    if_neg (by simp [hasPrefix, List.isPrefixOf]), if_neg (by simp [hasPrefix, List.isPrefixOf]),
    if_neg (by simp [hasPrefix, List.isPrefixOf]), if_pos (hasPrefix_append _ _), hsl]
  simp only [Res.bind_ok, hhex, hm]
  rw [commitRun_nil _ _ hN2]
  rw [commitOf_nil]
  rfl

example : ∀ l ∈ [b!"author A <a> 1 +0000", b!"", b!"message"], HeaderLine 4096 l ∧ l.head? ≠ some SP := by
  intro l hl
  simp only [List.mem_cons, List.not_mem_nil, or_false] at hl
  rcases hl with rfl | rfl | rfl <;> exact ⟨headerLine_mk (by decide) (by omega), by decide⟩

/-! ## C36 Truncated commits and tags are rejected

Full statement: a commit or tag stream that stops before the announced size
fails to decode. This is false; the announced size is never compared with what
was read. Below: which truncations are accepted and which are rejected. -/

/-- Every commit cut anywhere inside its message is accepted, as the commit with
the shorter message. -/
theorem commit_truncation_accepted (N : Nat) (hN : 4096 ≤ N) (is : List Item) (h : ItemsOk N is)
    (p q : Bytes) (hlen : (itemsBody is (p ++ q)).length < 2 ^ 63) :
    (b!"commit " ++ decimal (itemsBody is (p ++ q)).length ++ NUL :: itemsBody is (p ++ q)) =
      (b!"commit " ++ decimal (itemsBody is (p ++ q)).length ++ NUL :: itemsBody is p) ++ q ∧
    parseObject (σ := Stream)
      ⟨b!"commit " ++ decimal (itemsBody is (p ++ q)).length ++ NUL :: itemsBody is p, .eof, N⟩ =
      .ok (.commit (commitOf is p)) :=
  ⟨by simp [itemsBody], parse_items (sizeText_decimal _ hlen) N hN is h p⟩

/-- Every commit cut after any of its header items is accepted. -/
theorem commit_truncation_headers_accepted (N : Nat) (hN : 4096 ≤ N) (d : Bytes) (hd : SizeText d)
    (is : List Item) (h : ItemsOk N is) (hmt : ∀ x t, is.getLast? ≠ some (.mergetag x t)) :
    parseObject (σ := Stream) ⟨b!"commit " ++ d ++ NUL :: itemsText is, .eof, N⟩ =
      .ok (.commit (commitOf is [])) := by
  have := commitRun_items' is Commit.zero [] .eof N hN h (by rintro ⟨x, t, hx⟩; exact absurd hx (hmt x t))
  rw [List.append_nil] at this
  rw [parse_commit_size hd, this, commitRun_nil _ _ (by omega), commitOf_nil]
  rfl

example : ∀ x t, sampleItems.getLast? ≠ some (.mergetag x t) := by
  intro x t; simp [sampleItems]

/-- Every tag cut anywhere inside its message is accepted. -/
theorem tag_truncation_accepted (N : Nat) (hN : 4096 ≤ N) (is : List TagItem) (h : ∀ i ∈ is, i.Ok N)
    (d p : Bytes) (hd : NUL ∉ d) :
    parseObject (σ := Stream) ⟨b!"tag " ++ d ++ NUL :: (tagItemsText is ++ LF :: p), .eof, N⟩ =
      .ok (.tag (tagOf is p)) := by
  rw [parse_tag_nul _ _ _ _ hd, tagRun_items is _ _ _ N hN h, tagRun_message _ _ N hN]
  rfl

theorem sigRun_end (s : Stream) (hN : 2 ≤ s.bufsz) (m g : Bytes) (s' : Stream)
    (h : sigRun m s = .ok (g, s')) : sigEnd <:+: s.rest := by
  induction s using stream_induct generalizing m with
  | h s ih =>
    rw [sigRun_eq m s hN] at h
    cases hr : Stream.readLine s with
    | err e => rw [hr] at h; simp at h
    | panic => rw [hr] at h; simp at h
    | ok p =>
      obtain ⟨l, s1⟩ := p
      rw [hr] at h
      simp only at h
      split at h
      · rename_i heq
        have := readLine_prefix _ _ _ hr
        rw [heq] at this
        exact this.isInfix
      · have hlt := Stream.readLine_lt _ _ _ hN hr
        exact (ih s1 hlt (by rw [hlt.bufsz]; exact hN) _ h).trans hlt.suf.isInfix

/-- A signature without its closing line is rejected, whatever the rest of the
stream is. In particular a commit that is cut inside a signature is. -/
theorem commit_unterminated_signature (N : Nat) (hN : 4096 ≤ N) (d : Bytes) (hd : SizeText d)
    (pre : List Item) (h : ItemsOk N pre) (x p : Bytes) (hx : HeaderLine N (b!"gpgsig " ++ x))
    (hp : ¬ b!" -----END PGP SIGNATURE-----" <:+: p) :
    ∃ e, parseObject (σ := Stream) ⟨b!"commit " ++ d ++ NUL ::
      (itemsText pre ++ unlines [b!"gpgsig " ++ x] ++ p), .eof, N⟩ = .err e := by
  have hN2 : 2 ≤ N := by omega
  rw [parse_commit_size hd, List.append_assoc, unlines_cons, unlines_nil, List.nil_append,
    commitRun_items pre _ _ _ N hN h (startsOk_line hx (by simp; decide)),
    commitRun_line _ _ _ _ _ hN2 hx, commitLineRun_eq _ _ _ hN2]
  have hc := clean_decodeGpgSig (⟨p, .eof, N⟩ : Stream) hN2 (by simp)
  have hg : ∃ e, decodeGpgSig (⟨p, .eof, N⟩ : Stream) = .err e := by
    cases hr : decodeGpgSig (⟨p, .eof, N⟩ : Stream) with
    | err e => exact ⟨e, rfl⟩
    | panic => exact absurd hr hc.1
    | ok q =>
      exfalso
      obtain ⟨g, s'⟩ := q
      rw [decodeGpgSig_eq] at hr
      obtain ⟨⟨l, s1⟩, h1, hr⟩ := Res.bind_eq_ok.1 hr
      obtain ⟨sg, h2, hr⟩ := Res.bind_eq_ok.1 hr
      have hlt := Stream.readLine_lt _ _ _ hN2 h1
      exact hp ((sigRun_end s1 (by rw [hlt.bufsz]; exact hN2) _ _ _ hr).trans hlt.suf.isInfix)
  obtain ⟨e, hg⟩ := hg
  refine ⟨e, ?_⟩
  simp [hasPrefix, List.isPrefixOf, hg]

example : ¬ b!" -----END PGP SIGNATURE-----" <:+: b!" \n abc\n -----END PGP" :=
  (not_infix_iff _ _).2 (by decide)

theorem mergeMsgRun_eof (ls : List Bytes) (m p : Bytes) (N : Nat) (hN : 4096 ≤ N)
    (hls : ∀ l ∈ ls, HeaderLine N l ∧ l.head? = some SP)
    (hp : p = [] ∨ (p.head? = some SP ∧ LF ∉ p ∧ p.length < N)) :
    mergeMsgRun m ⟨unlines ls ++ p, .eof, N⟩ = .err .eof := by
  have hN2 : 2 ≤ N := by omega
  have hpre : ∀ l : Bytes, l.head? = some SP → hasPrefix l b!" " = true := by
    intro l hl
    cases l with
    | nil => simp at hl
    | cons c l =>
      simp only [List.head?_cons, Option.some.injEq] at hl
      subst hl
      rfl
  induction ls generalizing m with
  | nil =>
    rw [unlines_nil, List.nil_append]
    rcases hp with rfl | ⟨h1, h2, h3⟩
    · rw [mergeMsgRun_eq _ _ hN2]; rfl
    · have hne : p ≠ [] := by rintro rfl; simp at h1
      rw [mergeMsgRun_eq _ _ hN2, Stream.readLine_last .eof hne h2 h3]
      simp only [hpre p h1, not_true_eq_false, if_false]
      rw [mergeMsgRun_eq _ _ hN2]; rfl
  | cons l ls ih =>
    have hl := hls l (by simp)
    rw [unlines_cons, mergeMsgRun_eq _ _ hN2, Stream.readLine_line _ _ hl.1]
    simp only [hpre l hl.2, not_true_eq_false, if_false]
    exact ih _ fun y hy => hls y (by simp [hy])

/-- A commit that is cut inside the message of a merge tag is rejected. -/
theorem commit_truncated_mergetag (N : Nat) (hN : 4096 ≤ N) (d : Bytes) (hd : SizeText d)
    (pre : List Item) (h : ItemsOk N pre) (x : Bytes) (t : Tag) (hx : Ref x (digest t.object))
    (ht : MergeTagOk N t) (ls : List Bytes) (p : Bytes)
    (hm : t.message = unlines ls) (hls : ∀ l ∈ ls, HeaderLine N l ∧ l.head? = some SP)
    (hp : p = [] ∨ (p.head? = some SP ∧ LF ∉ p ∧ p.length < N)) :
    parseObject (σ := Stream) ⟨b!"commit " ++ d ++ NUL ::
      (itemsText pre ++ mergeTagBlock x t ++ p), .eof, N⟩ = .err .eof := by
  have hN2 : 2 ≤ N := by omega
  have hline : HeaderLine N (b!"mergetag object " ++ x) :=
    headerLine_ref N _ _ _ (by decide) hx (by simp; omega)
  have hbody : itemsText pre ++ mergeTagBlock x t ++ p = itemsText pre ++
      ((b!"mergetag object " ++ x) ++ LF :: ((b!" type " ++ t.typ) ++ LF :: ((b!" tag " ++ t.tag) ++ LF ::
        ((b!" tagger " ++ personText t.tagger) ++ LF :: (b!" " ++ LF :: (unlines ls ++ p)))))) := by
    simp [mergeTagBlock, unlines, hm]
  rw [parse_commit_size hd, hbody, commitRun_items pre _ _ _ N hN h (startsOk_line hline (by simp; decide)),
    commitRun_line _ _ _ _ _ hN2 hline, commitLineRun_eq _ _ _ hN2]
  have hhex : hexDecode x = .ok (digest t.object) := (hexDecode_iff _ _).2 hx.1
  have hsl : sliceFrom (b!"mergetag object " ++ x) 16 = .ok x := sliceFrom_append _ _ _ rfl
  have hmt : readMergeTag (digest t.object) (⟨(b!" type " ++ t.typ) ++ LF :: ((b!" tag " ++ t.tag) ++ LF ::
        ((b!" tagger " ++ personText t.tagger) ++ LF :: (b!" " ++ LF :: (unlines ls ++ p)))), .eof, N⟩ : Stream) =
      .err .eof := by
    rw [readMergeTag_eq, shaToCid_ok _ hx.2]
    simp only [Res.bind_ok]
    rw [mergeTagRun_eq _ _ hN2, Stream.readLine_line _ _ ht.typ]
    simp only [hasPrefix_append, if_true, sliceFrom_append b!" type " t.typ 6 rfl, Res.bind_ok]
    rw [mergeTagRun_eq _ _ hN2, Stream.readLine_line _ _ ht.tag]
    dsimp only
    rw [if_neg (by simp [hasPrefix, List.isPrefixOf])]
    simp only [hasPrefix_append, if_true, sliceFrom_append b!" tag " t.tag 5 rfl, Res.bind_ok]
    rw [mergeTagRun_eq _ _ hN2, Stream.readLine_line _ _ ht.taggerLine]
    dsimp only
    rw [if_neg (by simp [hasPrefix, List.isPrefixOf]), if_neg (by simp [hasPrefix, List.isPrefixOf])]
    have hpl := person_line b!"tagger" t.tagger (by decide) ht.tagger
    have hs1 : sliceFrom (b!" tagger " ++ personText t.tagger) 1 =
        .ok (b!"tagger" ++ SP :: personText t.tagger) := sliceFrom_append [SP] _ 1 rfl
    simp only [hasPrefix_append, if_true, hs1, Res.bind_ok, hpl]
    rw [mergeTagRun_eq _ _ hN2, Stream.readLine_line _ _ (headerLine_mk (by decide) hN)]
    dsimp only
    rw [if_neg (by decide), if_neg (by decide), if_neg (by decide), if_pos rfl,
      mergeMsgRun_eof ls _ p N hN hls hp]
    rfl
  rw [if_neg (by simp [hasPrefix, List.isPrefixOf]), if_neg (by simp [hasPrefix, List.isPrefixOf]),
    if_neg (by simp [hasPrefix, List.isPrefixOf]), if_neg (by simp [hasPrefix, List.isPrefixOf]),
    if_neg (by simp [hasPrefix, List.isPrefixOf]), if_pos (hasPrefix_append _ _), hsl]
  simp only [Res.bind_ok, hhex, hmt]
  rfl

end Verif.Props
